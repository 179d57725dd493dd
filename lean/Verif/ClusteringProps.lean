import Verif.Clustering
import Mathlib.Logic.Relation
import Mathlib.Algebra.Order.Ring.Nat
import Mathlib.Tactic.Common

/-! C19: the clusters are the connected components. -/

namespace CTHyb

/-! ### Helper: roots of the al forest -/

/-- `r` is reached from `c` by following aliases, and is its own al. -/
inductive Root (al : ℕ → ℕ) : ℕ → ℕ → Prop
  | base (r : ℕ) (h : al r = r) : Root al r r
  | step (c r : ℕ) (h : al c ≠ c) (hr : Root al (al c) r) : Root al c r

theorem Root.fix {al : ℕ → ℕ} {c r : ℕ} (h : Root al c r) : al r = r := by
  induction h with
  | base r h => exact h
  | step c r h hr ih => exact ih

theorem Root.det {al : ℕ → ℕ} {c r r' : ℕ} (h : Root al c r) (h' : Root al c r') :
    r = r' := by
  induction h with
  | base r h =>
    cases h' with
    | base _ _ => rfl
    | step _ _ h2 _ => exact absurd h h2
  | step c r h hr ih =>
    cases h' with
    | base _ h2 => exact absurd h2 h
    | step _ _ _ h3 => exact ih h3

/-- Aliases never point upwards. -/
def Down (al : ℕ → ℕ) : Prop := ∀ c, al c ≤ c

theorem Root.exists {al : ℕ → ℕ} (hd : Down al) (c : ℕ) : ∃ r, Root al c r := by
  induction c using Nat.strongRecOn with
  | _ c ih =>
    by_cases h : al c = c
    · exact ⟨c, Root.base c h⟩
    · obtain ⟨r, hr⟩ := ih (al c) (lt_of_le_of_ne (hd c) h)
      exact ⟨r, Root.step c r h hr⟩

theorem Root.le {al : ℕ → ℕ} (hd : Down al) {c r : ℕ} (h : Root al c r) : r ≤ c := by
  induction h with
  | base r h => exact le_rfl
  | step c r h hr ih => exact le_trans ih (hd c)

theorem root_alias {al : ℕ → ℕ} {c r : ℕ} (h : Root al c r) : Root al (al c) r := by
  cases h with
  | base _ h => rw [h]; exact Root.base _ h
  | step _ _ _ hr => exact hr

theorem chase_spec (al : ℕ → ℕ) (hd : Down al) (fuel c : ℕ) (hf : c < fuel) :
    ∃ vis r, chase al fuel c = some (vis, r) ∧ Root al c r ∧ ∀ v ∈ vis, Root al v r := by
  induction fuel generalizing c with
  | zero => omega
  | succ fuel ih =>
    unfold chase
    by_cases h : al c = c
    · exact ⟨[], c, by simp [h], Root.base c h, by simp⟩
    · have hlt : al c < c := lt_of_le_of_ne (hd c) h
      obtain ⟨vis, r, h1, h2, h3⟩ := ih (al c) (by omega)
      refine ⟨c :: vis, r, by simp [h, h1], Root.step c r h h2, ?_⟩
      intro v hv
      rcases List.mem_cons.1 hv with rfl | hv
      · exact Root.step v r h h2
      · exact h3 v hv

theorem upd_root {al : ℕ → ℕ} (hd : Down al) {v r : ℕ} (hv : Root al v r) :
    Down (upd al v r) ∧ ∀ x y, Root (upd al v r) x y ↔ Root al x y := by
  have hr := hv.fix
  have hd' : Down (upd al v r) := by
    intro c; unfold upd; split
    · subst_vars; exact hv.le hd
    · exact hd c
  have hr' : upd al v r r = r := by unfold upd; split <;> simp_all
  have fwd : ∀ x y, Root al x y → Root (upd al v r) x y := by
    intro x y h
    induction h with
    | base y h =>
      refine Root.base y ?_
      unfold upd; split
      · subst_vars; exact hv.det (Root.base _ h)
      · exact h
    | step c y h hcy ih =>
      by_cases hc : c = v
      · have hyr : y = r := (Root.step c y h hcy).det (hc ▸ hv)
        subst hyr
        have hval : upd al v y c = y := by simp [upd, hc]
        by_cases hcy2 : c = y
        · subst hcy2; exact Root.base c hval
        · exact Root.step c y (by rw [hval]; exact Ne.symm hcy2) (by rw [hval]; exact Root.base y hr')
      · have hval : upd al v r c = al c := by simp [upd, hc]
        exact Root.step c y (by rw [hval]; exact h) (by rw [hval]; exact ih)
  refine ⟨hd', fun x y => ⟨?_, fwd x y⟩⟩
  intro h
  obtain ⟨y0, hy0⟩ := Root.exists hd x
  have := (fwd x y0 hy0).det h
  rwa [← this]

theorem compress_root {al : ℕ → ℕ} (hd : Down al) (vis : List ℕ) (r : ℕ)
    (hv : ∀ v ∈ vis, Root al v r) :
    Down (compress al vis r) ∧ ∀ x y, Root (compress al vis r) x y ↔ Root al x y := by
  induction vis generalizing al with
  | nil => exact ⟨hd, fun x y => Iff.rfl⟩
  | cons v vis ih =>
    obtain ⟨h1, h2⟩ := upd_root hd (hv v (by simp))
    have := ih h1 (fun w hw => (h2 w r).2 (hv w (by simp [hw])))
    refine ⟨this.1, fun x y => ?_⟩
    have h3 := this.2 x y
    simp only [compress, List.foldl_cons] at h3 ⊢
    rw [h3, h2]

theorem getTrueLabel_spec {al : ℕ → ℕ} (hd : Down al) (c : ℕ) :
    ∃ r al', getTrueLabel al c = some (r, al') ∧ Root al c r ∧ Down al' ∧
      ∀ x y, Root al' x y ↔ Root al x y := by
  unfold getTrueLabel
  by_cases h : al c = c
  · exact ⟨c, al, by simp [h], Root.base c h, hd, fun x y => Iff.rfl⟩
  · obtain ⟨vis, r, h1, h2, h3⟩ := chase_spec al hd (c + 1) c (by omega)
    obtain ⟨h4, h5⟩ := compress_root hd vis r h3
    exact ⟨r, compress al vis r, by simp [h, h1], h2, h4, h5⟩

theorem link_root {al : ℕ → ℕ} (hd : Down al) {a b : ℕ} (ha : al a = a) (hb : al b = b)
    (hab : a < b) :
    Down (upd al b a) ∧ ∀ x y, Root (upd al b a) x y ↔
      (Root al x y ∧ y ≠ b) ∨ (Root al x b ∧ y = a) := by
  have hd' : Down (upd al b a) := by
    intro c; unfold upd; split
    · omega
    · exact hd c
  have ha' : upd al b a a = a := by simp [upd, ha, ne_of_lt hab]
  have hb' : upd al b a b = a := by simp [upd]
  have fwd : ∀ x y, Root al x y → Root (upd al b a) x (if y = b then a else y) := by
    intro x y h
    induction h with
    | base y h =>
      split
      · subst_vars
        exact Root.step _ _ (by rw [hb']; exact ne_of_lt hab) (by rw [hb']; exact Root.base _ ha')
      · rename_i hy
        exact Root.base _ (by simp [upd, hy, h])
    | step c y h hcy ih =>
      have hcb : c ≠ b := by rintro rfl; exact h hb
      have hval : upd al b a c = al c := by simp [upd, hcb]
      exact Root.step _ _ (by rw [hval]; exact h) (by rw [hval]; exact ih)
  refine ⟨hd', fun x y => ⟨?_, ?_⟩⟩
  · intro h
    obtain ⟨y0, hy0⟩ := Root.exists hd x
    have h2 := (fwd x y0 hy0).det h
    by_cases hyb : y0 = b
    · right; subst hyb; simp at h2; exact ⟨hy0, h2.symm⟩
    · left; simp [hyb] at h2; subst h2; exact ⟨hy0, hyb⟩
  · rintro (⟨h, hy⟩ | ⟨h, rfl⟩)
    · have := fwd x y h; simpa [hy] using this
    · have := fwd x b h; simpa using this

/-- Same cluster. -/
def SameRoot (al : ℕ → ℕ) (x y : ℕ) : Prop := ∃ r, Root al x r ∧ Root al y r

theorem connect_spec {al : ℕ → ℕ} (hd : Down al) (v1 v2 : ℕ) :
    ∃ al', connectVertices al v1 v2 = some al' ∧ Down al' ∧
      ∀ x y, SameRoot al' x y ↔ SameRoot al x y ∨
        (SameRoot al x v1 ∧ SameRoot al y v2) ∨
        (SameRoot al x v2 ∧ SameRoot al y v1) := by
  obtain ⟨r1, a1, e1, hr1, hd1, hi1⟩ := getTrueLabel_spec hd (al v1)
  obtain ⟨r2, a2, e2, hr2, hd2, hi2⟩ := getTrueLabel_spec hd1 (a1 v2)
  have R1 : Root al v1 r1 := by
    obtain ⟨r, hr⟩ := Root.exists hd v1
    have := (root_alias hr).det hr1
    rwa [this] at hr
  have R2 : Root al v2 r2 := by
    obtain ⟨r, hr⟩ := Root.exists hd1 v2
    have := (root_alias hr).det hr2
    rw [this] at hr
    exact (hi1 _ _).1 hr
  have hroot : ∀ x y, Root a2 x y ↔ Root al x y := fun x y => (hi2 x y).trans (hi1 x y)
  have f1 : a2 r1 = r1 := ((hroot v1 r1).2 R1).fix
  have f2 : a2 r2 = r2 := ((hroot v2 r2).2 R2).fix
  have hsr : ∀ x y r, Root al y r → (SameRoot al x y ↔ Root al x r) := by
    intro x y r hy
    exact ⟨fun ⟨r', h1, h2⟩ => (h2.det hy) ▸ h1, fun h => ⟨r, h, hy⟩⟩
  have hx1 := fun x => hsr x v1 r1 R1
  have hx2 := fun x => hsr x v2 r2 R2
  -- description of the linked forest, for `lo < hi`
  have hlink : ∀ lo hi, a2 lo = lo → a2 hi = hi → lo < hi → ∀ x y,
      (SameRoot (upd a2 hi lo) x y ↔ SameRoot al x y ∨
        (Root al x lo ∧ Root al y hi) ∨ (Root al x hi ∧ Root al y lo)) := by
    intro lo hi fl fh hlt x y
    obtain ⟨-, hl⟩ := link_root hd2 fl fh hlt
    obtain ⟨rx, hrx⟩ := Root.exists hd x
    obtain ⟨ry, hry⟩ := Root.exists hd y
    constructor
    · rintro ⟨r, h1, h2⟩
      rw [hl] at h1 h2
      simp only [hroot] at h1 h2
      rcases h1 with ⟨h1, h1'⟩ | ⟨h1, h1'⟩ <;> rcases h2 with ⟨h2, h2'⟩ | ⟨h2, h2'⟩
      · exact Or.inl ⟨r, h1, h2⟩
      · subst h2'; exact Or.inr (Or.inl ⟨h1, h2⟩)
      · subst h1'; exact Or.inr (Or.inr ⟨h1, h2⟩)
      · exact Or.inl ⟨hi, h1, h2⟩
    · rintro (⟨r, h1, h2⟩ | ⟨h1, h2⟩ | ⟨h1, h2⟩)
      · by_cases hr : r = hi
        · subst hr
          refine ⟨lo, ?_, ?_⟩ <;> rw [hl] <;> simp only [hroot]
          · exact Or.inr ⟨h1, trivial⟩
          · exact Or.inr ⟨h2, trivial⟩
        · refine ⟨r, ?_, ?_⟩ <;> rw [hl] <;> simp only [hroot]
          · exact Or.inl ⟨h1, hr⟩
          · exact Or.inl ⟨h2, hr⟩
      · refine ⟨lo, ?_, ?_⟩ <;> rw [hl] <;> simp only [hroot]
        · exact Or.inl ⟨h1, ne_of_lt hlt⟩
        · exact Or.inr ⟨h2, trivial⟩
      · refine ⟨lo, ?_, ?_⟩ <;> rw [hl] <;> simp only [hroot]
        · exact Or.inr ⟨h1, trivial⟩
        · exact Or.inl ⟨h2, ne_of_lt hlt⟩
  by_cases h12 : r1 = r2
  · refine ⟨a2, by simp [connectVertices, e1, e2, h12], hd2, ?_⟩
    intro x y
    subst h12
    have : SameRoot a2 x y ↔ SameRoot al x y := by
      simp only [SameRoot, hroot]
    rw [this, hx1, hx2, hx1, hx2]
    constructor
    · exact fun h => Or.inl h
    · rintro (h | ⟨h1, h2⟩ | ⟨h1, h2⟩)
      · exact h
      · exact ⟨r1, h1, h2⟩
      · exact ⟨r1, h1, h2⟩
  · rcases lt_or_gt_of_ne h12 with hlt | hlt
    · refine ⟨upd a2 r2 r1, by simp [connectVertices, e1, e2, h12, hlt],
        (link_root hd2 f1 f2 hlt).1, ?_⟩
      intro x y
      rw [hlink r1 r2 f1 f2 hlt, hx1, hx2, hx1, hx2]
    · refine ⟨upd a2 r1 r2, by simp [connectVertices, e1, e2, h12, hlt.not_gt],
        (link_root hd2 f2 f1 hlt).1, ?_⟩
      intro x y
      rw [hlink r2 r1 f2 f1 hlt, hx1, hx2, hx1, hx2]
      tauto

/-- Connected through a list of edges: the smallest equivalence relation containing them. -/
def Connected (edges : List (ℕ × ℕ)) : ℕ → ℕ → Prop :=
  Relation.EqvGen (fun a b => (a, b) ∈ edges)

theorem connectAll_spec (edges : List (ℕ × ℕ)) : ∀ (al : ℕ → ℕ) (pre : List (ℕ × ℕ)), Down al →
    (∀ x y, SameRoot al x y ↔ Connected pre x y) →
    ∃ al', connectAll al edges = some al' ∧ Down al' ∧
      ∀ x y, SameRoot al' x y ↔ Connected (pre ++ edges) x y := by
  induction edges with
  | nil =>
    intro al pre hd h
    exact ⟨al, rfl, hd, by simpa using h⟩
  | cons e es ih =>
    intro al pre hd h
    obtain ⟨a', h1, h2, h3⟩ := connect_spec hd e.1 e.2
    obtain ⟨a'', g1, g2, g3⟩ := ih a' (pre ++ [e]) h2 (by
      intro x y
      rw [h3, h, h, h, h, h]
      constructor
      · have mono : ∀ u w, Connected pre u w → Connected (pre ++ [e]) u w := by
          intro u w huw
          exact Relation.EqvGen.mono (r := fun a b => (a, b) ∈ pre) (fun a b hab => List.mem_append_left _ hab) _ _ huw
        have hedge : Connected (pre ++ [e]) e.1 e.2 := Relation.EqvGen.rel _ _ (by simp)
        rintro (h | ⟨h1, h2⟩ | ⟨h1, h2⟩)
        · exact mono _ _ h
        · exact ((mono _ _ h1).trans _ _ _ hedge).trans _ _ _ ((mono _ _ h2).symm _ _)
        · exact ((mono _ _ h1).trans _ _ _ (hedge.symm _ _)).trans _ _ _ ((mono _ _ h2).symm _ _)
      · intro hxy
        induction hxy with
        | rel a b hab =>
          simp only [List.mem_append, List.mem_singleton] at hab
          rcases hab with hab | hab
          · exact Or.inl (Relation.EqvGen.rel _ _ hab)
          · right; left
            have h1 : a = e.1 := by rw [← hab]
            have h2 : b = e.2 := by rw [← hab]
            rw [h1, h2]
            exact ⟨Relation.EqvGen.refl _, Relation.EqvGen.refl _⟩
        | refl a => exact Or.inl (Relation.EqvGen.refl a)
        | symm a b _ ih =>
          rcases ih with h | ⟨h1, h2⟩ | ⟨h1, h2⟩
          · exact Or.inl (h.symm _ _)
          · exact Or.inr (Or.inr ⟨h2, h1⟩)
          · exact Or.inr (Or.inl ⟨h2, h1⟩)
        | trans a b c _ _ ih1 ih2 =>
          rcases ih1 with h | ⟨h1, h2⟩ | ⟨h1, h2⟩ <;> rcases ih2 with g | ⟨g1, g2⟩ | ⟨g1, g2⟩
          · exact Or.inl (h.trans _ _ _ g)
          · exact Or.inr (Or.inl ⟨h.trans _ _ _ g1, g2⟩)
          · exact Or.inr (Or.inr ⟨h.trans _ _ _ g1, g2⟩)
          · exact Or.inr (Or.inl ⟨h1, (g.symm _ _).trans _ _ _ h2⟩)
          · exact Or.inr (Or.inl ⟨h1, g2⟩)
          · exact Or.inl (h1.trans _ _ _ (g2.symm _ _))
          · exact Or.inr (Or.inr ⟨h1, (g.symm _ _).trans _ _ _ h2⟩)
          · exact Or.inl (h1.trans _ _ _ (g2.symm _ _))
          · exact Or.inr (Or.inr ⟨h1, g2⟩))
    refine ⟨a'', by simp [connectAll, h1, g1], g2, ?_⟩
    simpa using g3

theorem getTrueLabel_keeps {al al' : ℕ → ℕ} (hd : Down al) {c r j : ℕ}
    (h : getTrueLabel al c = some (r, al')) (hj : Root al j (al j)) : al' j = al j := by
  unfold getTrueLabel at h
  by_cases hc : al c = c
  · simp [hc] at h; rw [← h.2]
  · obtain ⟨vis, r', h1, h2, h3⟩ := chase_spec al hd (c + 1) c (by omega)
    simp [hc, h1] at h
    obtain ⟨rfl, rfl⟩ := h
    clear h1
    have key : ∀ (vis : List ℕ) (f : ℕ → ℕ), f j = al j → (∀ v ∈ vis, Root al v r') →
        compress f vis r' j = al j := by
      intro vis
      induction vis with
      | nil => intro f hf _; exact hf
      | cons v vis ih =>
        intro f hf hv
        refine ih (upd f v r') ?_ (fun w hw => hv w (by simp [hw]))
        unfold upd; split
        · subst_vars; exact (hv _ (by simp)).det hj
        · exact hf
    exact key vis al rfl h3

theorem finalizeLoop_spec (is : List ℕ) : ∀ (al : ℕ → ℕ) (valid : List ℕ) (done : List ℕ),
    Down al → valid.Nodup → (∀ i ∈ done, Root al i (al i)) →
    (∀ x, x ∈ valid ↔ ∃ i ∈ done, Root al i x) →
    ∃ a' v', finalizeLoop (al, valid) is = some (a', v') ∧ v'.Nodup ∧
      (∀ x y, Root a' x y ↔ Root al x y) ∧ (∀ i ∈ done ++ is, Root a' i (a' i)) ∧
      (∀ x, x ∈ v' ↔ ∃ i ∈ done ++ is, Root a' i x) := by
  induction is with
  | nil =>
    intro al valid done hd hn h1 h2
    exact ⟨al, valid, rfl, hn, fun _ _ => Iff.rfl, by simpa using h1, by simpa using h2⟩
  | cons i is ih =>
    intro al valid done hd hn h1 h2
    obtain ⟨r, a1, e1, hr, hd1, hi1⟩ := getTrueLabel_spec hd i
    obtain ⟨hd2, hi2⟩ := upd_root hd1 ((hi1 i r).2 hr)
    have hroot : ∀ x y, Root (upd a1 i r) x y ↔ Root al x y :=
      fun x y => (hi2 x y).trans (hi1 x y)
    have hval : upd a1 i r i = r := by simp [upd]
    have hdone : ∀ j ∈ done ++ [i], Root (upd a1 i r) j (upd a1 i r j) := by
      intro j hj
      rw [hroot]
      by_cases hji : j = i
      · subst hji; rw [hval]; exact hr
      · have hj' : j ∈ done := by simpa [hji] using hj
        have : upd a1 i r j = al j := by
          simp only [upd, hji, if_false]; exact getTrueLabel_keeps hd e1 (h1 j hj')
        rw [this]; exact h1 j hj'
    have hmem : ∀ x, x ∈ (if r ∈ valid then valid else valid ++ [r]) ↔
        ∃ j ∈ done ++ [i], Root (upd a1 i r) j x := by
      intro x
      have hx : (∃ j ∈ done ++ [i], Root (upd a1 i r) j x) ↔ x ∈ valid ∨ x = r := by
        rw [h2]
        constructor
        · rintro ⟨j, hj, hjx⟩
          rw [hroot] at hjx
          rcases List.mem_append.1 hj with hj | hj
          · exact Or.inl ⟨j, hj, hjx⟩
          · rw [List.mem_singleton.1 hj] at hjx
            exact Or.inr (hjx.det hr)
        · rintro (⟨j, hj, hjx⟩ | rfl)
          · exact ⟨j, by simp [hj], (hroot _ _).2 hjx⟩
          · exact ⟨i, by simp, (hroot _ _).2 hr⟩
      rw [hx]
      split
      · constructor
        · exact Or.inl
        · rintro (h | rfl) <;> assumption
      · simp
    have hnd : (if r ∈ valid then valid else valid ++ [r]).Nodup := by
      split
      · exact hn
      · rename_i h
        rw [List.nodup_append]
        refine ⟨hn, by simp, ?_⟩
        intro a ha b hb
        rw [List.mem_singleton.1 hb]
        rintro rfl; exact h ha
    obtain ⟨a', v', g1, g2, g3, g4, g5⟩ := ih (upd a1 i r) _ (done ++ [i]) hd2 hnd hdone hmem
    refine ⟨a', v', ?_, g2, fun x y => (g3 x y).trans (hroot x y), by simpa using g4,
      by simpa using g5⟩
    simp only [finalizeLoop, finalizeStep, e1, Option.map_some, Option.bind_some, hval]
    exact g1

/-- **C19.** For every vertex number `N` and every list of connections between vertices below `N`,
labelling ends normally and: two vertices get the same label exactly if they are connected; the
labels are `0, …, numClusters-1`, each one used; the member lists contain each vertex exactly
once, in the list of its label, in increasing order. -/
theorem C19_clusters (N : ℕ) (edges : List (ℕ × ℕ)) :
    ∃ L, clusterLabels N edges = some L ∧
      (∀ i < N, ∀ j < N, L.label i = L.label j ↔ Connected edges i j) ∧
      (∀ i < N, L.label i < L.numClusters) ∧
      (∀ l < L.numClusters, ∃ i < N, L.label i = l) ∧
      (∀ l i, i ∈ L.members l ↔ i < N ∧ L.label i = l) ∧
      (∀ l, (L.members l).Pairwise (· < ·)) := by
  have hd0 : Down (id : ℕ → ℕ) := fun c => le_rfl
  have h0 : ∀ x y, SameRoot (id : ℕ → ℕ) x y ↔ Connected [] x y := by
    intro x y
    have hid : ∀ u w, Root (id : ℕ → ℕ) u w ↔ u = w := by
      intro u w
      constructor
      · intro h; cases h with
        | base _ _ => rfl
        | step _ _ h _ => exact absurd rfl h
      · rintro rfl; exact Root.base u rfl
    constructor
    · rintro ⟨r, h1, h2⟩
      rw [hid] at h1 h2; subst h1; subst h2; exact Relation.EqvGen.refl _
    · intro h
      have : x = y := by
        induction h with
        | rel a b hab => simp at hab
        | refl a => rfl
        | symm a b _ ih => exact ih.symm
        | trans a b c _ _ ih1 ih2 => exact ih1.trans ih2
      subst this
      exact ⟨x, (hid _ _).2 rfl, (hid _ _).2 rfl⟩
  obtain ⟨al, e1, hd, hsame⟩ := connectAll_spec edges id [] hd0 h0
  obtain ⟨a', v, e2, hn, hroot, hlab, hv⟩ :=
    finalizeLoop_spec (List.range N) al [] [] hd (by simp) (by simp) (by simp)
  simp only [List.nil_append, List.mem_range] at hlab hv hsame
  have hmem : ∀ i < N, a' i ∈ v := fun i hi => (hv _).2 ⟨i, hi, hlab i hi⟩
  refine ⟨⟨v.length, fun i => v.idxOf (a' i), fun l => (List.range N).filter
    (fun i => decide (v.idxOf (a' i) = l))⟩, by simp [clusterLabels, finalizeLabeling, e1, e2],
    ?_, ?_, ?_, ?_, ?_⟩
  · intro i hi j hj
    rw [← hsame]
    show v.idxOf (a' i) = v.idxOf (a' j) ↔ _
    rw [List.idxOf_inj (hmem i hi)]
    have Ri := (hroot _ _).1 (hlab i hi)
    have Rj := (hroot _ _).1 (hlab j hj)
    constructor
    · intro h; rw [← h] at Rj; exact ⟨_, Ri, Rj⟩
    · rintro ⟨r, h1, h2⟩
      rw [Ri.det h1, Rj.det h2]
  · intro i hi
    exact List.idxOf_lt_length_of_mem (hmem i hi)
  · intro l hl
    obtain ⟨i, hi, hr⟩ := (hv v[l]).1 (List.getElem_mem hl)
    refine ⟨i, hi, ?_⟩
    show v.idxOf (a' i) = l
    rw [(hlab i hi).det hr]
    exact hn.idxOf_getElem l hl
  · intro l i
    simp
  · intro l
    exact List.Pairwise.filter _ List.pairwise_lt_range

example : (clusterLabels 6 [(4, 2), (5, 0), (2, 5)]).map
    (fun L => (L.numClusters, (List.range 6).map L.label, L.members 0)) =
    some (3, [0, 1, 0, 2, 0, 0], [0, 2, 4, 5]) := by decide +kernel

end CTHyb
