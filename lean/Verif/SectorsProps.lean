import Verif.Sectors
import Verif.ClusteringProps
import Verif.FermionProps

/-!
C31: the sector decomposition.
-/

namespace CTHyb

/-! ### Specification -/

/-- Two states must be in the same sector by one step of the construction: an element of the
Hamiltonian joins them, or one operator maps both into states joined by the Hamiltonian. -/
def JoinStep (ham : List (ℕ × ℕ)) (ops : List (List (ℕ × ℕ))) (a b : ℕ) : Prop :=
  (a, b) ∈ ham ∨ ∃ o ∈ ops, ∃ r r', (r, a) ∈ o ∧ (r', b) ∈ o ∧ Connected ham r r'

/-- All positions are inside the matrix. -/
def InBounds (N : ℕ) (l : List (ℕ × ℕ)) : Prop := ∀ e ∈ l, e.1 < N ∧ e.2 < N

/-- The wanted property: an operator with stored elements `o` maps each sector into one sector. -/
def MapsSectors (sec : ℕ → ℕ) (o : List (ℕ × ℕ)) : Prop :=
  ∀ e ∈ o, ∀ e' ∈ o, sec e.2 = sec e'.2 → sec e.1 = sec e'.1

/-! ### Auxiliary lemmas -/

theorem eqvGen_bound {r : ℕ → ℕ → Prop} {N : ℕ} (h : ∀ a b, r a b → a < N ∧ b < N) {a b : ℕ}
    (hab : Relation.EqvGen r a b) : a < N ↔ b < N := by
  induction hab with
  | rel a b h' => exact ⟨fun _ => (h a b h').2, fun _ => (h a b h').1⟩
  | refl => exact Iff.rfl
  | symm a b _ ih => exact ih.symm
  | trans a b c _ _ i1 i2 => exact i1.trans i2

theorem blockNonzero_iff (lab : ℕ → ℕ) (o : List (ℕ × ℕ)) (i j : ℕ) :
    blockNonzero lab o i j = true ↔ ∃ e ∈ o, lab e.1 = i ∧ lab e.2 = j := by
  simp [blockNonzero]

theorem mem_mergeEdges {lab : ℕ → ℕ} {nc : ℕ} {o : List (ℕ × ℕ)} {x y : ℕ}
    (h : (x, y) ∈ mergeEdges lab nc o) :
    x < nc ∧ y < nc ∧ ∃ i < nc, blockNonzero lab o i x = true ∧ blockNonzero lab o i y = true := by
  unfold mergeEdges at h
  rw [List.mem_flatMap] at h
  obtain ⟨i, hi, h⟩ := h
  have hi' := List.mem_range.1 hi
  have key : ∀ z, z ∈ (List.range nc).filter (fun j => blockNonzero lab o i j) →
      z < nc ∧ blockNonzero lab o i z = true := by
    intro z hz
    rw [List.mem_filter, List.mem_range] at hz
    exact hz
  revert h key
  cases (List.range nc).filter (fun j => blockNonzero lab o i j) with
  | nil => intro h; simp at h
  | cons r0 rs =>
    intro h key
    simp only [List.mem_map, Prod.mk.injEq] at h
    obtain ⟨r, hr, rfl, rfl⟩ := h
    have h1 := key r0 (by simp)
    have h2 := key r (by simp [hr])
    exact ⟨h1.1, h2.1, i, hi', h1.2, h2.2⟩

theorem mergeEdges_connects {lab : ℕ → ℕ} {nc : ℕ} {o : List (ℕ × ℕ)} {i x y : ℕ} (hi : i < nc)
    (hx : x < nc) (hy : y < nc) (h1 : blockNonzero lab o i x = true)
    (h2 : blockNonzero lab o i y = true) : Connected (mergeEdges lab nc o) x y := by
  have hmem : ∀ e, (e ∈ match (List.range nc).filter (fun j => blockNonzero lab o i j) with
      | [] => []
      | r0 :: rs => rs.map fun r => (r0, r)) → e ∈ mergeEdges lab nc o := by
    intro e he
    unfold mergeEdges
    rw [List.mem_flatMap]
    exact ⟨i, List.mem_range.2 hi, he⟩
  have hx' : x ∈ (List.range nc).filter (fun j => blockNonzero lab o i j) := by
    rw [List.mem_filter]; exact ⟨List.mem_range.2 hx, h1⟩
  have hy' : y ∈ (List.range nc).filter (fun j => blockNonzero lab o i j) := by
    rw [List.mem_filter]; exact ⟨List.mem_range.2 hy, h2⟩
  revert hmem hx' hy'
  cases (List.range nc).filter (fun j => blockNonzero lab o i j) with
  | nil => intro _ h; simp at h
  | cons r0 rs =>
    intro hmem hx' hy'
    have base : ∀ z, z ∈ r0 :: rs → Connected (mergeEdges lab nc o) r0 z := by
      intro z hz
      rcases List.mem_cons.1 hz with rfl | hz
      · exact Relation.EqvGen.refl _
      · exact Relation.EqvGen.rel _ _ (hmem (r0, z) (List.mem_map.2 ⟨z, hz, rfl⟩))
    exact Relation.EqvGen.trans _ _ _ (Relation.EqvGen.symm _ _ (base x hx')) (base y hy')

theorem connected_mono {E E' : List (ℕ × ℕ)} (h : ∀ e ∈ E, e ∈ E') {a b : ℕ}
    (hab : Connected E a b) : Connected E' a b := by
  unfold Connected at *
  exact Relation.EqvGen.mono (fun a b h' => h _ h') _ _ hab

/-- **C31.** The labelling always terminates, and two states are in the same sector exactly if they
are joined by a chain of steps of the construction. -/
theorem C31_sectors_exact (N : ℕ) (ham : List (ℕ × ℕ)) (ops : List (List (ℕ × ℕ)))
    (hH : InBounds N ham) (hO : ∀ o ∈ ops, InBounds N o) :
    ∃ ns sec, sectorsOf N ham ops = some (ns, sec) ∧
      (∀ a < N, sec a < ns) ∧ (∀ s < ns, ∃ a < N, sec a = s) ∧
      ∀ a < N, ∀ b < N, sec a = sec b ↔ Relation.EqvGen (JoinStep ham ops) a b := by
  obtain ⟨cl, e1, l1, l2, l3, -, -⟩ := C19_clusters N ham
  obtain ⟨cl2, e2, m1, m2, m3, -, -⟩ :=
    C19_clusters cl.numClusters (ops.flatMap (mergeEdges cl.label cl.numClusters))
  refine ⟨cl2.numClusters, fun s => cl2.label (cl.label s), ?_, ?_, ?_, ?_⟩
  · simp only [sectorsOf, e1, Option.bind_some, e2, Option.map_some]
  · intro a ha; exact m2 _ (l2 a ha)
  · intro s hs
    obtain ⟨i, hi, rfl⟩ := m3 s hs
    obtain ⟨a, ha, rfl⟩ := l3 i hi
    exact ⟨a, ha, rfl⟩
  have hamSub : ∀ {a b}, Connected ham a b → Relation.EqvGen (JoinStep ham ops) a b := by
    intro a b h
    unfold Connected at h
    exact Relation.EqvGen.mono (fun a b h' => Or.inl h') _ _ h
  have hamB : ∀ {a b}, Connected ham a b → (a < N ↔ b < N) := by
    intro a b h
    exact eqvGen_bound (fun a b h' => hH _ h') h
  have edgeB : ∀ a b, (a, b) ∈ ops.flatMap (mergeEdges cl.label cl.numClusters) →
      a < cl.numClusters ∧ b < cl.numClusters := by
    intro a b h
    rw [List.mem_flatMap] at h
    obtain ⟨o, _, h⟩ := h
    have := mem_mergeEdges h
    exact ⟨this.1, this.2.1⟩
  intro a ha b hb
  rw [m1 _ (l2 a ha) _ (l2 b hb)]
  constructor
  · intro h
    have gen : ∀ x y, Connected (ops.flatMap (mergeEdges cl.label cl.numClusters)) x y →
        ∀ a < N, ∀ b < N, cl.label a = x → cl.label b = y →
          Relation.EqvGen (JoinStep ham ops) a b := by
      intro x y hxy
      induction hxy with
      | rel x y h =>
        intro a ha b hb hax hby
        rw [List.mem_flatMap] at h
        obtain ⟨o, ho, h⟩ := h
        obtain ⟨-, -, i, -, h1, h2⟩ := mem_mergeEdges h
        rw [blockNonzero_iff] at h1 h2
        obtain ⟨e, he, e1, e2⟩ := h1
        obtain ⟨e', he', e1', e2'⟩ := h2
        have b1 := hO o ho e he
        have b2 := hO o ho e' he'
        have c1 : Connected ham a e.2 := (l1 a ha _ b1.2).1 (by rw [hax, e2])
        have c2 : Connected ham e'.2 b := (l1 _ b2.2 b hb).1 (by rw [hby, e2'])
        have c3 : Connected ham e.1 e'.1 := (l1 _ b1.1 _ b2.1).1 (by rw [e1, e1'])
        exact Relation.EqvGen.trans _ _ _ (hamSub c1) (Relation.EqvGen.trans _ _ _
          (Relation.EqvGen.rel _ _ (Or.inr ⟨o, ho, e.1, e'.1, he, he', c3⟩)) (hamSub c2))
      | refl x =>
        intro a ha b hb hax hby
        exact hamSub ((l1 a ha b hb).1 (by rw [hax, hby]))
      | symm x y _ ih =>
        intro a ha b hb hax hby
        exact Relation.EqvGen.symm _ _ (ih b hb a ha hby hax)
      | trans x z y h1 h2 ih1 ih2 =>
        intro a ha b hb hax hby
        have hz : z < cl.numClusters :=
          (eqvGen_bound (fun a b h' => edgeB a b h') h1).1 (by rw [← hax]; exact l2 a ha)
        obtain ⟨c, hc, hcz⟩ := l3 z hz
        exact Relation.EqvGen.trans _ _ _ (ih1 a ha c hc hax hcz) (ih2 c hc b hb hcz hby)
    exact gen _ _ h a ha b hb rfl rfl
  · intro h
    have stepB : ∀ a b, JoinStep ham ops a b → a < N ∧ b < N := by
      rintro a b (h | ⟨o, ho, r, r', h1, h2, -⟩)
      · exact hH _ h
      · exact ⟨(hO o ho _ h1).2, (hO o ho _ h2).2⟩
    have gen : ∀ a b, Relation.EqvGen (JoinStep ham ops) a b → a < N → b < N →
        Connected (ops.flatMap (mergeEdges cl.label cl.numClusters)) (cl.label a) (cl.label b) := by
      intro a b h
      induction h with
      | rel a b h =>
        intro ha hb
        rcases h with h | ⟨o, ho, r, r', h1, h2, h3⟩
        · have : cl.label a = cl.label b := (l1 a ha b hb).2 (Relation.EqvGen.rel _ _ h)
          rw [this]; exact Relation.EqvGen.refl _
        · have hr := hO o ho _ h1
          have hr' := hO o ho _ h2
          have e : cl.label r = cl.label r' := (l1 r hr.1 r' hr'.1).2 h3
          refine connected_mono (E := mergeEdges cl.label cl.numClusters o) (fun e he =>
            List.mem_flatMap.2 ⟨o, ho, he⟩) ?_
          refine mergeEdges_connects (i := cl.label r) (l2 r hr.1) (l2 a ha) (l2 b hb) ?_ ?_
          · rw [blockNonzero_iff]; exact ⟨_, h1, rfl, rfl⟩
          · rw [blockNonzero_iff]; exact ⟨_, h2, e.symm, rfl⟩
      | refl a => intro _ _; exact Relation.EqvGen.refl _
      | symm a b _ ih => intro ha hb; exact Relation.EqvGen.symm _ _ (ih hb ha)
      | trans a c b h1 _ ih1 ih2 =>
        intro ha hb
        have hc := (eqvGen_bound stepB h1).1 ha
        exact Relation.EqvGen.trans _ _ _ (ih1 ha hc) (ih2 hc hb)
    exact gen a b h ha hb

/-- **C31, first half.** States connected by the Hamiltonian are in the same sector. -/
theorem C31_hamiltonian (N : ℕ) (ham : List (ℕ × ℕ)) (ops : List (List (ℕ × ℕ)))
    (hH : InBounds N ham) (hO : ∀ o ∈ ops, InBounds N o) {ns : ℕ} {sec : ℕ → ℕ}
    (h : sectorsOf N ham ops = some (ns, sec)) {r c : ℕ} (hrc : (r, c) ∈ ham) : sec r = sec c := by
  obtain ⟨ns', sec', e, -, -, k⟩ := C31_sectors_exact N ham ops hH hO
  rw [e] at h
  simp only [Option.some.injEq, Prod.mk.injEq] at h
  obtain ⟨-, rfl⟩ := h
  have b := hH _ hrc
  exact (k r b.1 c b.2).2 (Relation.EqvGen.rel _ _ (Or.inl hrc))

/-- **C31.** Sectors are never coarser than necessary: any labelling of states which the Hamiltonian
conserves and which every operator maps injectively (label to label) is constant on sectors. -/
theorem C31_quantum_numbers {Q : Type} (N : ℕ) (ham : List (ℕ × ℕ)) (ops : List (List (ℕ × ℕ)))
    (hH : InBounds N ham) (hO : ∀ o ∈ ops, InBounds N o) {ns : ℕ} {sec : ℕ → ℕ}
    (h : sectorsOf N ham ops = some (ns, sec)) (q : ℕ → Q) (hq : ∀ e ∈ ham, q e.1 = q e.2)
    (hop : ∀ o ∈ ops, ∀ e ∈ o, ∀ e' ∈ o, q e.1 = q e'.1 → q e.2 = q e'.2)
    {a b : ℕ} (ha : a < N) (hb : b < N) (hab : sec a = sec b) : q a = q b := by
  obtain ⟨ns', sec', e, -, -, k⟩ := C31_sectors_exact N ham ops hH hO
  rw [e] at h
  simp only [Option.some.injEq, Prod.mk.injEq] at h
  obtain ⟨-, rfl⟩ := h
  have conn : ∀ {x y}, Connected ham x y → q x = q y := by
    intro x y hxy
    induction hxy with
    | rel x y h => exact hq _ h
    | refl => rfl
    | symm _ _ _ ih => exact ih.symm
    | trans _ _ _ _ _ i1 i2 => exact i1.trans i2
  have hab' := (k a ha b hb).1 hab
  clear ha hb hab
  induction hab' with
  | rel x y h =>
    rcases h with h | ⟨o, ho, r, r', h1, h2, h3⟩
    · exact hq _ h
    · exact hop o ho _ h1 _ h2 (conn h3)
  | refl => rfl
  | symm _ _ _ ih => exact ih.symm
  | trans _ _ _ _ _ i1 i2 => exact i1.trans i2

/-- **C31, second half, under a condition.**  If such a labelling separates the sectors (states with
equal labels are in the same sector) and operators map labels to labels, then every operator maps
each sector into one sector. -/
theorem C31_maps_sectors_partial {Q : Type} (N : ℕ) (ham : List (ℕ × ℕ)) (ops : List (List (ℕ × ℕ)))
    (hH : InBounds N ham) (hO : ∀ o ∈ ops, InBounds N o) {ns : ℕ} {sec : ℕ → ℕ}
    (h : sectorsOf N ham ops = some (ns, sec)) (q : ℕ → Q) (hq : ∀ e ∈ ham, q e.1 = q e.2)
    (hop : ∀ o ∈ ops, ∀ e ∈ o, ∀ e' ∈ o, q e.1 = q e'.1 ↔ q e.2 = q e'.2)
    (hsep : ∀ a < N, ∀ b < N, q a = q b → Connected ham a b) :
    ∀ o ∈ ops, MapsSectors sec o := by
  intro o ho e he e' he' hs
  have be := hO o ho e he
  have be' := hO o ho e' he'
  have := C31_quantum_numbers N ham ops hH hO h q hq (fun o ho e he e' he' => (hop o ho e he e' he').1)
    be.2 be'.2 hs
  have c := hsep _ be.1 _ be'.1 ((hop o ho e he e' he').2 this)
  obtain ⟨ns', sec', e0, -, -, k⟩ := C31_sectors_exact N ham ops hH hO
  rw [e0] at h
  simp only [Option.some.injEq, Prod.mk.injEq] at h
  obtain ⟨-, rfl⟩ := h
  refine (k _ be.1 _ be'.1).2 ?_
  unfold Connected at c
  exact Relation.EqvGen.mono (fun a b h' => Or.inl h') _ _ c

/-- **C31, second half, no merging.**  If no operator maps two different clusters of the Hamiltonian
into the same cluster, and with each operator its transpose is in the list, then sectors are the
clusters of the Hamiltonian and every operator maps each sector into one sector.  (This is the
case, for example, for a diagonal Hamiltonian.) -/
theorem C31_no_merge_partial (N : ℕ) (ham : List (ℕ × ℕ)) (ops : List (List (ℕ × ℕ)))
    (hH : InBounds N ham) (hO : ∀ o ∈ ops, InBounds N o) {ns : ℕ} {sec : ℕ → ℕ}
    (h : sectorsOf N ham ops = some (ns, sec))
    (hT : ∀ o ∈ ops, ∃ o' ∈ ops, ∀ e ∈ o, (e.2, e.1) ∈ o')
    (hinj : ∀ o ∈ ops, ∀ e ∈ o, ∀ e' ∈ o, Connected ham e.1 e'.1 → Connected ham e.2 e'.2) :
    (∀ a < N, ∀ b < N, sec a = sec b ↔ Connected ham a b) ∧ ∀ o ∈ ops, MapsSectors sec o := by
  obtain ⟨ns', sec', e0, -, -, k⟩ := C31_sectors_exact N ham ops hH hO
  rw [e0] at h
  simp only [Option.some.injEq, Prod.mk.injEq] at h
  obtain ⟨-, rfl⟩ := h
  have main : ∀ a < N, ∀ b < N, sec' a = sec' b ↔ Connected ham a b := by
    intro a ha b hb
    rw [k a ha b hb]
    constructor
    · intro h
      clear ha hb
      induction h with
      | rel x y h =>
        rcases h with h | ⟨o, ho, r, r', h1, h2, h3⟩
        · exact Relation.EqvGen.rel _ _ h
        · exact hinj o ho _ h1 _ h2 h3
      | refl => exact Relation.EqvGen.refl _
      | symm _ _ _ ih => exact Relation.EqvGen.symm _ _ ih
      | trans _ _ _ _ _ i1 i2 => exact Relation.EqvGen.trans _ _ _ i1 i2
    · intro h
      unfold Connected at h
      exact Relation.EqvGen.mono (fun a b h' => Or.inl h') _ _ h
  refine ⟨main, ?_⟩
  intro o ho e he e' he' hs
  have be := hO o ho e he
  have be' := hO o ho e' he'
  obtain ⟨o', ho', ht⟩ := hT o ho
  rw [main _ be.2 _ be'.2] at hs
  rw [main _ be.1 _ be'.1]
  exact hinj o' ho' _ (ht e he) _ (ht e' he') hs

/-! ### The operators of the code -/

theorem mem_storedEntries {K : Type} {N : ℕ} {keep : K → Bool} {M : Matrix (Fin N) (Fin N) K}
    {e : ℕ × ℕ} : e ∈ storedEntries keep M ↔
      ∃ r c : Fin N, keep (M r c) = true ∧ e = (r.val, c.val) := by
  simp only [storedEntries, List.mem_flatMap, List.mem_map, List.mem_filter, List.mem_finRange,
    true_and]
  constructor
  · rintro ⟨c, r, h, rfl⟩; exact ⟨r, c, h, rfl⟩
  · rintro ⟨r, c, h, rfl⟩; exact ⟨c, r, h, rfl⟩

theorem storedEntries_bounds {K : Type} {N : ℕ} (keep : K → Bool) (M : Matrix (Fin N) (Fin N) K) :
    InBounds N (storedEntries keep M) := by
  intro e he
  obtain ⟨r, c, -, rfl⟩ := mem_storedEntries.1 he
  exact ⟨r.isLt, c.isLt⟩

theorem opEntries_bounds (n : ℕ) : ∀ o ∈ opEntries n, InBounds (2 ^ n) o := by
  intro o ho
  simp only [opEntries, List.mem_flatMap, List.mem_cons, List.not_mem_nil, or_false] at ho
  obtain ⟨i, -, rfl | rfl⟩ := ho <;> exact storedEntries_bounds _ _

/-- Specification: number of set bits below `n`. -/
def popc (n s : ℕ) : ℤ := ∑ k ∈ Finset.range n, if s.testBit k then 1 else 0

/-- Specification: a matrix which changes the number of set bits by `d`. -/
def Graded {K : Type} [Zero K] {n : ℕ} (d : ℤ) (M : Matrix (Fin (2 ^ n)) (Fin (2 ^ n)) K) : Prop :=
  ∀ r c, M r c ≠ 0 → popc n r = popc n c + d

theorem Graded.mul {K : Type} [CommRing K] {n : ℕ} {d d' : ℤ}
    {A B : Matrix (Fin (2 ^ n)) (Fin (2 ^ n)) K} (ha : Graded d A) (hb : Graded d' B) :
    Graded (d + d') (A * B) := by
  intro r c h
  rw [Matrix.mul_apply] at h
  obtain ⟨m, -, hm⟩ := Finset.exists_ne_zero_of_sum_ne_zero h
  have h1 := ha r m (left_ne_zero_of_mul hm)
  have h2 := hb m c (right_ne_zero_of_mul hm)
  rw [h1, h2]; ring

theorem Graded.zero {K : Type} [CommRing K] {n : ℕ} {d : ℤ} :
    Graded d (0 : Matrix (Fin (2 ^ n)) (Fin (2 ^ n)) K) := fun _ _ h => absurd rfl h

theorem Graded.add {K : Type} [CommRing K] {n : ℕ} {d : ℤ}
    {A B : Matrix (Fin (2 ^ n)) (Fin (2 ^ n)) K} (ha : Graded d A) (hb : Graded d B) :
    Graded d (A + B) := by
  intro r c h
  by_cases h1 : A r c = 0
  · exact hb r c (fun h2 => h (by rw [Matrix.add_apply, h1, h2, add_zero]))
  · exact ha r c h1

theorem Graded.sum {K : Type} [CommRing K] {n : ℕ} {d : ℤ} {ι : Type} (s : Finset ι)
    (f : ι → Matrix (Fin (2 ^ n)) (Fin (2 ^ n)) K) (h : ∀ i ∈ s, Graded d (f i)) :
    Graded d (∑ i ∈ s, f i) := by
  intro r c hne
  rw [Matrix.sum_apply] at hne
  obtain ⟨i, hi, hm⟩ := Finset.exists_ne_zero_of_sum_ne_zero hne
  exact h i hi r c hm

theorem Graded.smul {K : Type} [CommRing K] {n : ℕ} {d : ℤ} (x : K)
    {A : Matrix (Fin (2 ^ n)) (Fin (2 ^ n)) K} (ha : Graded d A) : Graded d (x • A) := by
  intro r c h
  exact ha r c (fun h1 => h (by rw [Matrix.smul_apply, h1, smul_zero]))

theorem popc_flip {n : ℕ} (i : Fin n) (s : Fin (2 ^ n)) (h : s.val.testBit i = true) :
    popc n s = popc n (flip i s) + 1 := by
  unfold popc
  have hi : i.val ∈ Finset.range n := Finset.mem_range.2 i.isLt
  rw [← Finset.add_sum_erase _ _ hi, ← Finset.add_sum_erase _ _ hi, h, flip_bit, h]
  have : ∀ k ∈ (Finset.range n).erase i.val, (if (flip i s).val.testBit k then (1 : ℤ) else 0) =
      if s.val.testBit k then 1 else 0 := by
    intro k hk
    have : ¬ i.val = k := fun e => (Finset.ne_of_mem_erase hk) e.symm
    rw [flip_bit]; simp [this]
  rw [Finset.sum_congr rfl this]
  simp; ring

theorem graded_cOp {n : ℕ} (i : Fin n) : Graded 1 (cOp n i) := by
  intro r c h
  obtain ⟨h1, rfl⟩ := (C30_sparse n i r c).1 h
  exact popc_flip i r h1

theorem graded_cdagOp {n : ℕ} (i : Fin n) : Graded (-1) (cdagOp n i) := by
  intro r c h
  have := graded_cOp i c r h
  rw [this]; ring

theorem Graded.map {K : Type} [CommRing K] {n : ℕ} {d : ℤ}
    {A : Matrix (Fin (2 ^ n)) (Fin (2 ^ n)) ℤ} (ha : Graded d A) :
    Graded d (A.map (Int.cast : ℤ → K)) := by
  intro r c h
  exact ha r c (fun h1 => h (by rw [Matrix.map_apply, h1, Int.cast_zero]))

theorem graded_ham {K : Type} [CommRing K] {n : ℕ} (big : K → Bool)
    (U : Fin n → Fin n → Fin n → Fin n → K) (t : Fin n → Fin n → K) :
    Graded 0 (hamMatrix big U t) := by
  unfold hamMatrix
  refine Graded.add ?_ ?_
  · refine Graded.sum _ _ fun f1 _ => Graded.sum _ _ fun f2 _ => Graded.sum _ _ fun f3 _ =>
      Graded.sum _ _ fun f4 _ => ?_
    split
    · refine Graded.smul _ ?_
      have := ((((graded_cdagOp f1).map (K := K)).mul ((graded_cdagOp f2).map (K := K))).mul
        ((graded_cOp f3).map (K := K))).mul ((graded_cOp f4).map (K := K))
      simpa using this
    · exact Graded.zero
  · refine Graded.sum _ _ fun f2 _ => Graded.sum _ _ fun f1 _ => ?_
    split
    · refine Graded.smul _ ?_
      have := ((graded_cdagOp f1).map (K := K)).mul ((graded_cOp f2).map (K := K))
      simpa using this
    · exact Graded.zero

/-- **C31.** For every interaction tensor and hopping matrix all states of a sector contain the same
number of electrons. -/
theorem C31_particle_number {K : Type} [CommRing K] {n : ℕ} (big keep : K → Bool)
    (hkeep : keep 0 = false) (U : Fin n → Fin n → Fin n → Fin n → K) (t : Fin n → Fin n → K)
    {ns : ℕ} {sec : ℕ → ℕ}
    (h : sectorsOf (2 ^ n) (storedEntries keep (hamMatrix big U t)) (opEntries n) = some (ns, sec))
    {a b : ℕ} (ha : a < 2 ^ n) (hb : b < 2 ^ n) (hab : sec a = sec b) : popc n a = popc n b := by
  refine C31_quantum_numbers _ _ _ (storedEntries_bounds _ _) (opEntries_bounds n) h (popc n) ?_ ?_
    ha hb hab
  · intro e he
    obtain ⟨r, c, hk, rfl⟩ := mem_storedEntries.1 he
    have := graded_ham big U t r c (fun h0 => by rw [h0, hkeep] at hk; cases hk)
    simpa using this
  · intro o ho e he e' he' heq
    simp only [opEntries, List.mem_flatMap, List.mem_cons, List.not_mem_nil, or_false] at ho
    obtain ⟨i, -, rfl | rfl⟩ := ho
    · obtain ⟨r, c, hk, rfl⟩ := mem_storedEntries.1 he
      obtain ⟨r', c', hk', rfl⟩ := mem_storedEntries.1 he'
      have h1 := graded_cdagOp i r c (by simpa using hk)
      have h2 := graded_cdagOp i r' c' (by simpa using hk')
      simp only at heq ⊢
      omega
    · obtain ⟨r, c, hk, rfl⟩ := mem_storedEntries.1 he
      obtain ⟨r', c', hk', rfl⟩ := mem_storedEntries.1 he'
      have h1 := graded_cOp i r c (by simpa using hk)
      have h2 := graded_cOp i r' c' (by simpa using hk')
      simp only at heq ⊢
      omega

/-! ### The second half of C31 fails in general -/

theorem sectors_invariant {Q Q' : Type} (N : ℕ) (ham : List (ℕ × ℕ)) (ops : List (List (ℕ × ℕ)))
    (hH : InBounds N ham) (hO : ∀ o ∈ ops, InBounds N o) {ns : ℕ} {sec : ℕ → ℕ}
    (h : sectorsOf N ham ops = some (ns, sec)) (p : ℕ → Q') (q : ℕ → Q)
    (hp : ∀ e ∈ ham, p e.1 = p e.2) (hq : ∀ e ∈ ham, q e.1 = q e.2)
    (hop : ∀ o ∈ ops, ∀ e ∈ o, ∀ e' ∈ o, p e.1 = p e'.1 → q e.2 = q e'.2)
    {a b : ℕ} (ha : a < N) (hb : b < N) (hab : sec a = sec b) : q a = q b := by
  obtain ⟨ns', sec', e, -, -, k⟩ := C31_sectors_exact N ham ops hH hO
  rw [e] at h
  simp only [Option.some.injEq, Prod.mk.injEq] at h
  obtain ⟨-, rfl⟩ := h
  have conn : ∀ {x y}, Connected ham x y → p x = p y := by
    intro x y hxy
    induction hxy with
    | rel x y h => exact hp _ h
    | refl => rfl
    | symm _ _ _ ih => exact ih.symm
    | trans _ _ _ _ _ i1 i2 => exact i1.trans i2
  have hab' := (k a ha b hb).1 hab
  clear ha hb hab
  induction hab' with
  | rel x y h =>
    rcases h with h | ⟨o, ho, r, r', h1, h2, h3⟩
    · exact hq _ h
    · exact hop o ho _ h1 _ h2 (conn h3)
  | refl => rfl
  | symm _ _ _ ih => exact ih.symm
  | trans _ _ _ _ _ i1 i2 => exact i1.trans i2

/-- Element of a product of four operators, evaluated along the row. -/
def rowTerm4 {n : ℕ} (f1 f2 f3 f4 : Fin n) (r c : Fin (2 ^ n)) : ℤ :=
  if r.val.testBit f1 then 0 else permSignBits n f1 r *
    (let r1 := flip f1 r
     if r1.val.testBit f2 then 0 else permSignBits n f2 r1 *
      (let r2 := flip f2 r1
       if r2.val.testBit f3 then permSignBits n f3 r2 *
        (let r3 := flip f3 r2
         if r3.val.testBit f4 = true ∧ c = flip f4 r3 then permSignBits n f4 r3 else 0) else 0))

/-- Element of a product of two operators, evaluated along the row. -/
def rowTerm2 {n : ℕ} (f1 f2 : Fin n) (r c : Fin (2 ^ n)) : ℤ :=
  if r.val.testBit f1 then 0 else permSignBits n f1 r *
    (let r1 := flip f1 r
     if r1.val.testBit f2 = true ∧ c = flip f2 r1 then permSignBits n f2 r1 else 0)

theorem rowTerm4_eq {n : ℕ} (f1 f2 f3 f4 : Fin n) (r c : Fin (2 ^ n)) :
    (cdagOp n f1 * cdagOp n f2 * cOp n f3 * cOp n f4) r c = rowTerm4 f1 f2 f3 f4 r c := by
  rw [mul_assoc, mul_assoc, cdagOp_mul, cdagOp_mul, cOp_mul, cOp_apply]
  rfl

theorem rowTerm2_eq {n : ℕ} (f1 f2 : Fin n) (r c : Fin (2 ^ n)) :
    (cdagOp n f1 * cOp n f2) r c = rowTerm2 f1 f2 r c := by
  rw [cdagOp_mul, cOp_apply]
  rfl

/-- The Hamiltonian with integer coefficients given by lists of terms. -/
theorem hamMatrix_int {n : ℕ} (U : Fin n → Fin n → Fin n → Fin n → ℤ) (t : Fin n → Fin n → ℤ)
    (r c : Fin (2 ^ n)) :
    hamMatrix (fun x : ℤ => x != 0) U t r c =
      ((List.finRange n).map fun f1 => ((List.finRange n).map fun f2 =>
        ((List.finRange n).map fun f3 => ((List.finRange n).map fun f4 =>
          if U f1 f2 f3 f4 != 0 then U f1 f2 f3 f4 * rowTerm4 f1 f2 f3 f4 r c else 0).sum).sum).sum).sum +
      ((List.finRange n).map fun f2 => ((List.finRange n).map fun f1 =>
          if t f1 f2 != 0 then t f1 f2 * rowTerm2 f1 f2 r c else 0).sum).sum := by
  have hc : ∀ M : Matrix (Fin (2 ^ n)) (Fin (2 ^ n)) ℤ, M.map (Int.cast : ℤ → ℤ) = M := by
    intro M; ext i j; simp
  unfold hamMatrix
  simp only [hc, Matrix.add_apply, Matrix.sum_apply, ← Fin.sum_univ_def]
  congr 1
  · refine Finset.sum_congr rfl fun f1 _ => Finset.sum_congr rfl fun f2 _ =>
      Finset.sum_congr rfl fun f3 _ => Finset.sum_congr rfl fun f4 _ => ?_
    split
    · rw [Matrix.smul_apply, rowTerm4_eq, smul_eq_mul]
    · rfl
  · refine Finset.sum_congr rfl fun f2 _ => Finset.sum_congr rfl fun f1 _ => ?_
    split
    · rw [Matrix.smul_apply, rowTerm2_eq, smul_eq_mul]
    · rfl

/-- Interaction of the counterexample (four flavours); the tensor is Hermitian. -/
def badU (f1 f2 f3 f4 : Fin 4) : ℤ :=
  match f1.val * 64 + f2.val * 16 + f3.val * 4 + f4.val with
  | 30 => 2    -- 0 1 3 2
  | 180 => 2   -- 2 3 1 0
  | 110 => -1  -- 1 2 3 2
  | 185 => -1  -- 2 3 2 1
  | 28 => 1    -- 0 1 3 0
  | 52 => 1    -- 0 3 1 0
  | _ => 0

/-- Hopping of the counterexample. -/
def badT (f1 f2 : Fin 4) : ℤ := if f1.val * 4 + f2.val = 7 ∨ f1.val * 4 + f2.val = 13 then -1 else 0

/-- Non-zero pattern of the Hamiltonian of the counterexample. -/
theorem badH_pattern : ∀ r c : Fin (2 ^ 4), hamMatrix (fun x : ℤ => x != 0) badU badT r c ≠ 0 ↔
    ((r.val, c.val) ∈ [(2, 8), (8, 2), (3, 12), (12, 3), (7, 13), (13, 7)]) := by
  simp only [hamMatrix_int]
  decide +kernel

/-- Clusters and sectors of the counterexample. -/
def badClusters : List ℕ := [0, 1, 2, 3, 4, 5, 6, 7, 2, 8, 9, 10, 3, 7, 11, 12]
def badSectors : List ℕ := [0, 1, 2, 3, 4, 5, 3, 6, 2, 3, 7, 8, 3, 6, 9, 10]

theorem opEntries4 : ∀ i : Fin 4, ∀ e e' : Fin (2 ^ 4),
    (e.val.testBit i = true → e'.val.testBit i = true →
      badClusters[e.val]? = badClusters[e'.val]? →
      badSectors[(flip i e).val]? = badSectors[(flip i e').val]?) ∧
    (e.val.testBit i = false → e'.val.testBit i = false →
      badClusters[e.val]? = badClusters[e'.val]? →
      badSectors[(flip i e).val]? = badSectors[(flip i e').val]?) := by
  decide +kernel

/-- **C31, second half, refuted.**  For the Hermitian Hamiltonian given by `badU` and `badT` a
creation operator maps one sector into two different sectors, so the blockwise operator
(which keeps one destination) is not the operator.  The merging of clusters would have to be
repeated until nothing changes. -/
theorem C31_counterexample :
    (∀ a b c d, badU a b c d = badU d c b a) ∧ (∀ a b, badT a b = badT b a) ∧
    ∃ ns sec, sectorsOf (2 ^ 4) (storedEntries (fun x : ℤ => x != 0)
        (hamMatrix (fun x : ℤ => x != 0) badU badT)) (opEntries 4) = some (ns, sec) ∧
      ¬ MapsSectors sec (storedEntries (fun x : ℤ => x != 0) (cdagOp 4 1)) := by
  refine ⟨by decide +kernel, by decide +kernel, ?_⟩
  set ham := storedEntries (fun x : ℤ => x != 0) (hamMatrix (fun x : ℤ => x != 0) badU badT) with hham
  have hb : InBounds (2 ^ 4) ham := storedEntries_bounds _ _
  have hmem : ∀ e : ℕ × ℕ, e ∈ ham ↔ e ∈ [(2, 8), (8, 2), (3, 12), (12, 3), (7, 13), (13, 7)] := by
    intro e
    rw [hham, mem_storedEntries]
    constructor
    · rintro ⟨r, c, h, rfl⟩
      exact (badH_pattern r c).1 (by simpa using h)
    · intro h
      have : e.1 < 2 ^ 4 ∧ e.2 < 2 ^ 4 := by
        simp only [List.mem_cons, List.not_mem_nil, or_false] at h
        rcases h with rfl | rfl | rfl | rfl | rfl | rfl <;> decide
      refine ⟨⟨e.1, this.1⟩, ⟨e.2, this.2⟩, ?_, rfl⟩
      have := (badH_pattern ⟨e.1, this.1⟩ ⟨e.2, this.2⟩).2 h
      simpa using this
  have hcd : ∀ (i : Fin 4) (r c : Fin (2 ^ 4)), r.val.testBit i = false → c = flip i r →
      (r.val, c.val) ∈ storedEntries (fun x : ℤ => x != 0) (cdagOp 4 i) := by
    intro i r c h1 h2
    rw [mem_storedEntries]
    refine ⟨r, c, ?_, rfl⟩
    have : cOp 4 i c r ≠ 0 := (C30_sparse 4 i c r).2 ⟨by rw [h2, flip_bit, h1]; simp, by
      rw [h2, flip_invol]⟩
    simpa [cdagOp] using this
  have hc : ∀ (i : Fin 4) (r c : Fin (2 ^ 4)), r.val.testBit i = true → c = flip i r →
      (r.val, c.val) ∈ storedEntries (fun x : ℤ => x != 0) (cOp 4 i) := by
    intro i r c h1 h2
    rw [mem_storedEntries]
    refine ⟨r, c, ?_, rfl⟩
    have : cOp 4 i r c ≠ 0 := (C30_sparse 4 i r c).2 ⟨h1, h2⟩
    simpa using this
  obtain ⟨ns, sec, e, -, -, k⟩ := C31_sectors_exact (2 ^ 4) ham (opEntries 4) hb (opEntries_bounds 4)
  refine ⟨ns, sec, e, fun hmap => ?_⟩
  have s36 : sec 3 = sec 6 := by
    rw [k 3 (by decide) 6 (by decide)]
    refine Relation.EqvGen.trans _ 12 _ (Relation.EqvGen.rel _ _ (Or.inl ((hmem _).2 (by simp))))
      (Relation.EqvGen.rel _ _ (Or.inr ⟨storedEntries (fun x : ℤ => x != 0) (cOp 4 (0 : Fin 4)), ?_,
        13, 7, hc 0 13 12 (by decide) (by decide), hc 0 7 6 (by decide) (by decide),
        Relation.EqvGen.rel _ _ ((hmem _).2 (by simp))⟩))
    simp only [opEntries, List.mem_flatMap]
    exact ⟨0, by decide, by simp⟩
  have s14 : sec 1 = sec 4 := hmap (1, 3) (hcd 1 1 3 (by decide) (by decide)) (4, 6)
    (hcd 1 4 6 (by decide) (by decide)) s36
  have := sectors_invariant (2 ^ 4) ham (opEntries 4) hb (opEntries_bounds 4) e
    (fun x => badClusters[x]?) (fun x => badSectors[x]?) ?_ ?_ ?_ (a := 1) (b := 4) (by decide) (by decide) s14
  · revert this; decide
  · intro x hx
    rw [hmem] at hx
    simp only [List.mem_cons, List.not_mem_nil, or_false] at hx
    rcases hx with rfl | rfl | rfl | rfl | rfl | rfl <;> decide
  · intro x hx
    rw [hmem] at hx
    simp only [List.mem_cons, List.not_mem_nil, or_false] at hx
    rcases hx with rfl | rfl | rfl | rfl | rfl | rfl <;> decide
  · intro o ho x hx y hy hxy
    simp only [opEntries, List.mem_flatMap, List.mem_cons, List.not_mem_nil, or_false] at ho
    obtain ⟨i, -, rfl | rfl⟩ := ho
    · obtain ⟨r, c, hk, rfl⟩ := mem_storedEntries.1 hx
      obtain ⟨r', c', hk', rfl⟩ := mem_storedEntries.1 hy
      have h1 : cOp 4 i c r ≠ 0 := by simpa [cdagOp] using hk
      have h2 : cOp 4 i c' r' ≠ 0 := by simpa [cdagOp] using hk'
      obtain ⟨h1a, h1b⟩ := (C30_sparse 4 i c r).1 h1
      obtain ⟨h2a, h2b⟩ := (C30_sparse 4 i c' r').1 h2
      have e1 : c = flip i r := by rw [h1b, flip_invol]
      have e2 : c' = flip i r' := by rw [h2b, flip_invol]
      have f1 : r.val.testBit i = false := by rw [h1b, flip_bit, h1a]; simp
      have f2 : r'.val.testBit i = false := by rw [h2b, flip_bit, h2a]; simp
      have := (opEntries4 i r r').2 f1 f2 hxy
      rw [← e1, ← e2] at this
      exact this
    · obtain ⟨r, c, hk, rfl⟩ := mem_storedEntries.1 hx
      obtain ⟨r', c', hk', rfl⟩ := mem_storedEntries.1 hy
      have h1 : cOp 4 i r c ≠ 0 := by simpa using hk
      have h2 : cOp 4 i r' c' ≠ 0 := by simpa using hk'
      obtain ⟨h1a, h1b⟩ := (C30_sparse 4 i r c).1 h1
      obtain ⟨h2a, h2b⟩ := (C30_sparse 4 i r' c').1 h2
      have := (opEntries4 i r r').1 h1a h2a hxy
      rw [← h1b, ← h2b] at this
      exact this

/-! ### Blockwise application -/

theorem indexInSector_strict {sec : ℕ → ℕ} {a b : ℕ} (h : a < b) (hs : sec a = sec b) :
    indexInSector sec a < indexInSector sec b := by
  unfold indexInSector
  rw [hs]
  have e : List.range b = List.range (a + 1) ++ (List.range (b - (a + 1))).map (a + 1 + ·) := by
    rw [← List.range_add]; congr 1; omega
  rw [e, List.filter_append, List.length_append, List.range_succ, List.filter_append,
    List.length_append]
  have : ([a].filter fun t => sec t == sec b).length = 1 := by simp [hs]
  omega

theorem indexInSector_inj {sec : ℕ → ℕ} {a b : ℕ} (hs : sec a = sec b)
    (h : indexInSector sec a = indexInSector sec b) : a = b := by
  rcases lt_trichotomy a b with hl | hl | hl
  · have := indexInSector_strict hl hs; omega
  · exact hl
  · have := indexInSector_strict hl hs.symm; omega

theorem indexInSector_lt {sec : ℕ → ℕ} {N a : ℕ} (h : a < N) :
    indexInSector sec a < dimSector N sec (sec a) := by
  unfold indexInSector dimSector
  have e : List.range N = List.range (a + 1) ++ (List.range (N - (a + 1))).map (a + 1 + ·) := by
    rw [← List.range_add]; congr 1; omega
  rw [e, List.filter_append, List.length_append, List.range_succ, List.filter_append,
    List.length_append]
  have : ([a].filter fun t => sec t == sec a).length = 1 := by simp
  omega

/-- **C31.** Inside a sector the states are numbered 0, 1, …, dimension - 1 without gaps and
repetitions; the dimensions of all sectors below `ns` add up to the number of states, if every
state belongs to one of them. -/
theorem C31_numbering (N ns : ℕ) (sec : ℕ → ℕ) (hsec : ∀ s, s < N → sec s < ns) :
    (∀ a, Set.BijOn (indexInSector sec) {s | s < N ∧ sec s = a} {i | i < dimSector N sec a}) ∧
    ∑ a ∈ Finset.range ns, dimSector N sec a = N := by
  have hcard : ∀ a, dimSector N sec a = ((Finset.range N).filter (fun t => sec t = a)).card := by
    intro a
    unfold dimSector
    rw [← List.toFinset_card_of_nodup (List.nodup_range.filter _), List.toFinset_filter,
      List.toFinset_range]
    congr 1
    ext t; simp
  constructor
  · intro a
    have hmaps : Set.MapsTo (indexInSector sec) {s | s < N ∧ sec s = a} {i | i < dimSector N sec a} := by
      rintro s ⟨h1, h2⟩
      have := indexInSector_lt (sec := sec) h1
      rw [h2] at this; exact this
    have hinj : Set.InjOn (indexInSector sec) {s | s < N ∧ sec s = a} := by
      rintro s ⟨_, h2⟩ t ⟨_, h4⟩ e
      exact indexInSector_inj (h2.trans h4.symm) e
    refine ⟨hmaps, hinj, ?_⟩
    have := Finset.surjOn_of_injOn_of_card_le (s := (Finset.range N).filter (fun t => sec t = a))
      (t := Finset.range (dimSector N sec a)) (indexInSector sec)
      (fun s hs => by
        have hs' : s < N ∧ sec s = a := by simpa using hs
        have := hmaps hs'
        simpa using this)
      (fun s hs t ht e => hinj (by simpa using hs) (by simpa using ht) e)
      (by rw [Finset.card_range, hcard])
    intro i hi
    obtain ⟨s, hs, e⟩ := this (by simpa using hi : i ∈ (↑(Finset.range (dimSector N sec a)) : Set ℕ))
    exact ⟨s, by simpa using hs, e⟩
  · simp_rw [hcard]
    rw [← Finset.card_eq_sum_card_fiberwise (fun s hs => by
      have := hsec s (by simpa using hs)
      simpa using this)]
    simp

/-- Three sectors of sizes 2, 1, 1. -/
example : ∑ a ∈ Finset.range 3, dimSector 4 (fun s => s % 3) a = 4 :=
  (C31_numbering 4 3 (fun s => s % 3) (fun s _ => Nat.mod_lt _ (by norm_num))).2


theorem dstSector_spec (sec : ℕ → ℕ) (o : List (ℕ × ℕ)) (hm : MapsSectors sec o) (src : ℕ) :
    (∀ e ∈ o, sec e.2 = src → dstSector sec o src = some (sec e.1)) ∧
      ((∀ e ∈ o, sec e.2 ≠ src) → dstSector sec o src = none) := by
  have gen : ∀ (l : List (ℕ × ℕ)) (d0 : Option ℕ), (∀ e ∈ l, e ∈ o) →
      ((∃ e ∈ l, sec e.2 = src) → ∃ e ∈ l, sec e.2 = src ∧
        l.foldl (fun d e => if sec e.2 = src then some (sec e.1) else d) d0 = some (sec e.1)) ∧
      ((∀ e ∈ l, sec e.2 ≠ src) →
        l.foldl (fun d e => if sec e.2 = src then some (sec e.1) else d) d0 = d0) := by
    intro l
    induction l with
    | nil => intro d0 _; exact ⟨by simp, fun _ => rfl⟩
    | cons x xs ih =>
      intro d0 hl
      have hxs : ∀ e ∈ xs, e ∈ o := fun e he => hl e (by simp [he])
      constructor
      · intro hex
        by_cases h2 : ∃ e ∈ xs, sec e.2 = src
        · obtain ⟨e, he, h3, h4⟩ := (ih (if sec x.2 = src then some (sec x.1) else d0) hxs).1 h2
          exact ⟨e, by simp [he], h3, h4⟩
        · have hx : sec x.2 = src := by
            obtain ⟨e, he, h⟩ := hex
            rcases List.mem_cons.1 he with rfl | he
            · exact h
            · exact absurd ⟨e, he, h⟩ h2
          refine ⟨x, by simp, hx, ?_⟩
          rw [List.foldl_cons, if_pos hx]
          exact (ih _ hxs).2 (fun e he h => h2 ⟨e, he, h⟩)
      · intro hno
        rw [List.foldl_cons, if_neg (hno x (by simp))]
        exact (ih _ hxs).2 (fun e he => hno e (by simp [he]))
  constructor
  · intro e he hs
    obtain ⟨e', he', hs', h⟩ := (gen o none (fun _ h => h)).1 ⟨e, he, hs⟩
    unfold dstSector
    rw [h, hm e he e' he' (hs.trans hs'.symm)]
  · intro h
    exact (gen o none (fun _ h => h)).2 h

theorem sum_filter_single {α K : Type} [AddCommMonoid K] [DecidableEq α] (l : List α) (hl : l.Nodup)
    (p : α → Bool) (f : α → K) (a : α) (ha : ∀ x ∈ l, p x = true ↔ x = a) :
    ((l.filter p).map f).sum = if a ∈ l then f a else 0 := by
  induction l with
  | nil => simp
  | cons x xs ih =>
    rw [List.nodup_cons] at hl
    have ih := ih hl.2 (fun y hy => ha y (by simp [hy]))
    by_cases hx : x = a
    · subst hx
      rw [List.filter_cons_of_pos ((ha x (by simp)).2 rfl), List.map_cons, List.sum_cons, ih,
        if_neg hl.1]
      simp
    · have hp : ¬ p x = true := fun h => hx ((ha x (by simp)).1 h)
      rw [List.filter_cons_of_neg hp, ih]
      have : (a ∈ x :: xs) ↔ a ∈ xs := by
        rw [List.mem_cons]; exact ⟨fun h => h.resolve_left fun e => hx e.symm, Or.inr⟩
      simp only [this]

theorem nodup_stored {N : ℕ} (p : Fin N → Fin N → Bool) :
    ((List.finRange N).flatMap fun c =>
      ((List.finRange N).filter fun r => p r c).map fun r => (r, c)).Nodup := by
  rw [List.nodup_flatMap]
  constructor
  · intro c _
    refine List.Nodup.map (fun a b h => (Prod.mk.inj h).1) ((List.nodup_finRange N).filter _)
  · have := List.nodup_finRange N
    refine List.Pairwise.imp ?_ this
    intro a b hab x hx hy
    simp only [List.mem_map] at hx hy
    obtain ⟨_, _, rfl⟩ := hx
    obtain ⟨_, _, h⟩ := hy
    exact hab ((Prod.mk.inj h).2).symm

/-- **C31, conclusion.**  If an operator maps sectors to sectors (the condition discussed above), then
its blocks hold all its elements: for a source state in sector `src` the element to a state of the
destination sector is the block element at the positions of the two states inside their sectors,
which are inside the dimensions of the block, and all other elements vanish. -/
theorem C31_blocks {K : Type} [AddCommMonoid K] {N : ℕ} (keep : K → Bool)
    (hkeep : ∀ x, keep x = false ↔ x = 0) (sec : ℕ → ℕ) (M : Matrix (Fin N) (Fin N) K)
    (hm : MapsSectors sec (storedEntries keep M)) (r c : Fin N) :
    (dstSector sec (storedEntries keep M) (sec c) = some (sec r) →
      sectorBlock keep sec M (sec c) (indexInSector sec r) (indexInSector sec c) = M r c ∧
      indexInSector sec r < dimSector N sec (sec r) ∧ indexInSector sec c < dimSector N sec (sec c)) ∧
    (dstSector sec (storedEntries keep M) (sec c) ≠ some (sec r) → M r c = 0) := by
  constructor
  · intro hd
    refine ⟨?_, indexInSector_lt r.isLt, indexInSector_lt c.isLt⟩
    unfold sectorBlock
    rw [sum_filter_single _ (nodup_stored fun r c => keep (M r c)) _ _ (r, c)]
    · have : ((r, c) ∈ (List.finRange N).flatMap fun c =>
          ((List.finRange N).filter fun r => keep (M r c)).map fun r => (r, c)) ↔ keep (M r c) = true := by
        simp only [List.mem_flatMap, List.mem_map, List.mem_filter, List.mem_finRange, true_and,
          Prod.mk.injEq]
        constructor
        · rintro ⟨c', r', h, rfl, rfl⟩; exact h
        · intro h; exact ⟨c, r, h, rfl, rfl⟩
      by_cases hk : keep (M r c) = true
      · rw [if_pos (this.2 hk)]
      · rw [if_neg (fun h => hk (this.1 h))]
        exact ((hkeep _).1 (by simpa using hk)).symm
    · rintro ⟨r', c'⟩ hx
      simp only [List.mem_flatMap, List.mem_map, List.mem_filter, List.mem_finRange, true_and,
        Prod.mk.injEq] at hx
      obtain ⟨c'', r'', hk, rfl, rfl⟩ := hx
      have hst : ((r''.val, c''.val) : ℕ × ℕ) ∈ storedEntries keep M :=
        mem_storedEntries.2 ⟨r'', c'', hk, rfl⟩
      simp only [decide_eq_true_eq, Prod.mk.injEq]
      constructor
      · rintro ⟨h1, h2, h3⟩
        have hd' := (dstSector_spec sec _ hm (sec c)).1 _ hst h1
        rw [hd] at hd'
        have h4 : sec r.val = sec r''.val := by simpa using hd'
        exact ⟨Fin.ext (indexInSector_inj h4.symm h2), Fin.ext (indexInSector_inj h1 h3)⟩
      · rintro ⟨rfl, rfl⟩; exact ⟨rfl, rfl, rfl⟩
  · intro hd
    by_contra hne
    apply hd
    have hk : keep (M r c) = true := by
      by_contra h
      exact hne ((hkeep _).1 (by simpa using h))
    exact (dstSector_spec sec _ hm (sec c)).1 _ (mem_storedEntries.2 ⟨r, c, hk, rfl⟩) rfl

/-- **C31, application.**  Under the same condition, applying the blocks to a vector supported in one
sector gives the full product. -/
theorem C31_apply {K : Type} [CommRing K] {N : ℕ} (keep : K → Bool)
    (hkeep : ∀ x, keep x = false ↔ x = 0) (sec : ℕ → ℕ) (M : Matrix (Fin N) (Fin N) K)
    (hm : MapsSectors sec (storedEntries keep M)) (src : ℕ) (v : Fin N → K)
    (hv : ∀ s : Fin N, sec s ≠ src → v s = 0) (r : Fin N) :
    ∑ c, M r c * v c = if dstSector sec (storedEntries keep M) src = some (sec r) then
      ∑ c : Fin N, (if sec c = src then
        sectorBlock keep sec M src (indexInSector sec r) (indexInSector sec c) * v c else 0) else 0 := by
  split
  · rename_i hd
    refine Finset.sum_congr rfl fun c _ => ?_
    split
    · rename_i hs
      subst hs
      rw [((C31_blocks keep hkeep sec M hm r c).1 hd).1]
    · rename_i hs
      rw [hv c hs, mul_zero]
  · rename_i hd
    refine Finset.sum_eq_zero fun c _ => ?_
    by_cases hs : sec c = src
    · subst hs
      rw [(C31_blocks keep hkeep sec M hm r c).2 hd, zero_mul]
    · rw [hv c hs, mul_zero]

/-- Concrete case of the positive results: a diagonal Hamiltonian on two flavours. -/
example : ∃ sec, sectorsOf (2 ^ 2) [(0, 0), (3, 3)] (opEntries 2) = some (4, sec) := by
  obtain ⟨ns, sec, e, h1, h2, -⟩ := C31_sectors_exact (2 ^ 2) [(0, 0), (3, 3)] (opEntries 2)
    (by intro e he; simp at he; rcases he with rfl | rfl <;> decide) (opEntries_bounds 2)
  have : (sectorsOf (2 ^ 2) [(0, 0), (3, 3)] (opEntries 2)).map Prod.fst = some 4 := by decide +kernel
  rw [e] at this
  simp only [Option.map_some, Option.some.injEq] at this
  subst this
  exact ⟨sec, e⟩

end CTHyb
