import Verif.WormMoveProps
import Mathlib.Data.Int.Interval

/-!
C10, continued: what the worm mover samples.  The weight is stationary under the mover only if the number of iterations does not
depend on the configuration; the distribution kept by the mover is the weight divided by the number of iterations.

Specification: `StationaryOn`, global balance of a finite set of configurations.
-/

namespace CTHyb

open Rand

variable {R : Type} [Field R] [LinearOrder R] [IsStrictOrderedRing R]

/-- **Specification.**  The distribution `w` on the configurations of `S` is not changed by one update: as much flows into every configuration as out of it. -/
def StationaryOn (S : Finset (WCfg ℤ)) (w : WCfg ℤ → R) (fl : WCfg ℤ → WCfg ℤ → R) : Prop :=
  ∀ y ∈ S, ∑ x ∈ S, w x * fl x y = w y * ∑ x ∈ S, fl y x

/-- A reversible chain keeps `π * f` only if `f` does not change along the moves. -/
theorem harmonic_const (S : Finset (WCfg ℤ)) (π f : WCfg ℤ → R) (fl : WCfg ℤ → WCfg ℤ → R) (hπ : ∀ x ∈ S, 0 < π x)
    (hfl : ∀ x ∈ S, ∀ y ∈ S, 0 ≤ fl x y) (hrev : ∀ x ∈ S, ∀ y ∈ S, π x * fl x y = π y * fl y x) :
    StationaryOn S (fun x => π x * f x) fl ↔ ∀ x ∈ S, ∀ y ∈ S, fl x y ≠ 0 → f x = f y := by
  constructor
  · intro h
    have h1 : ∀ y ∈ S, ∑ x ∈ S, π y * fl y x * (f x - f y) = 0 := by
      intro y hy
      have e := h y hy
      rw [Finset.mul_sum] at e
      rw [← sub_eq_zero.2 e, ← Finset.sum_sub_distrib]
      refine Finset.sum_congr rfl fun x hx => ?_
      linear_combination - f x * hrev x hx y hy
    have h2 : ∑ y ∈ S, ∑ x ∈ S, π y * fl y x * (f x - f y) * f y = 0 :=
      Finset.sum_eq_zero fun y hy => by rw [← Finset.sum_mul, h1 y hy, zero_mul]
    have h3 : ∑ y ∈ S, ∑ x ∈ S, π y * fl y x * (f x - f y) * f x = - ∑ y ∈ S, ∑ x ∈ S, π y * fl y x * (f x - f y) * f y := by
      rw [Finset.sum_comm, ← Finset.sum_neg_distrib]
      refine Finset.sum_congr rfl fun x hx => ?_
      rw [← Finset.sum_neg_distrib]
      refine Finset.sum_congr rfl fun y hy => ?_
      rw [hrev y hy x hx]
      ring
    have h4 : ∑ y ∈ S, ∑ x ∈ S, π y * fl y x * (f x - f y) ^ 2 = 0 := by
      have e : ∀ y ∈ S, ∑ x ∈ S, π y * fl y x * (f x - f y) ^ 2 =
          ∑ x ∈ S, π y * fl y x * (f x - f y) * f x - ∑ x ∈ S, π y * fl y x * (f x - f y) * f y := by
        intro y _
        rw [← Finset.sum_sub_distrib]
        exact Finset.sum_congr rfl fun x _ => by ring
      rw [Finset.sum_congr rfl e, Finset.sum_sub_distrib, h3, h2]
      ring
    have h5 : ∀ y ∈ S, ∀ x ∈ S, 0 ≤ π y * fl y x * (f x - f y) ^ 2 := fun y hy x hx =>
      mul_nonneg (mul_nonneg (hπ y hy).le (hfl y hy x hx)) (sq_nonneg _)
    intro x hx y hy hne
    have h6 := (Finset.sum_eq_zero_iff_of_nonneg fun y hy => Finset.sum_nonneg (h5 y hy)).1 h4 x hx
    have h7 := (Finset.sum_eq_zero_iff_of_nonneg (h5 x hx)).1 h6 y hy
    rcases mul_eq_zero.1 h7 with h8 | h8
    · exact absurd h8 (mul_ne_zero (hπ x hx).ne' hne)
    · exact (sub_eq_zero.1 (pow_eq_zero_iff (by norm_num) |>.1 h8)).symm
  · intro h y hy
    rw [Finset.mul_sum]
    refine Finset.sum_congr rfl fun x hx => ?_
    by_cases h0 : fl x y = 0
    · have h1 := hrev x hx y hy
      rw [h0, mul_zero] at h1
      have h2 : fl y x = 0 := (mul_eq_zero.1 h1.symm).resolve_left (hπ y hy).ne'
      simp only [h0, h2, mul_zero]
    · simp only [h x hx y hy h0]
      linear_combination f y * hrev x hx y hy

/-! ### Probabilities are not negative -/

namespace Rand

def Nonneg {α : Type} (m : Rand R α) : Prop := ∀ p ∈ m, 0 ≤ p.1

theorem nonneg_ret {α : Type} (a : α) : Nonneg (ret a : Rand R α) := by
  intro p hp
  rw [ret, Multiset.mem_singleton] at hp
  rw [hp]
  exact zero_le_one

theorem nonneg_unif {α : Type} (l : List α) : Nonneg (unif l : Rand R α) := by
  intro p hp
  rw [unif, Multiset.mem_map] at hp
  obtain ⟨a, -, rfl⟩ := hp
  positivity

theorem nonneg_coin {q : R} (h0 : 0 ≤ q) (h1 : q ≤ 1) : Nonneg (coin q) := by
  intro p hp
  simp only [coin, Multiset.insert_eq_cons, Multiset.mem_cons, Multiset.mem_singleton] at hp
  rcases hp with rfl | rfl
  · exact h0
  · exact sub_nonneg.2 h1

theorem nonneg_bind {α β : Type} {m : Rand R α} {k : α → Rand R β} (hm : Nonneg m) (hk : ∀ a, Nonneg (k a)) : Nonneg (bind m k) := by
  intro p hp
  rw [bind, Multiset.mem_bind] at hp
  obtain ⟨a, ha, hb⟩ := hp
  obtain ⟨b, hb', rfl⟩ := Multiset.mem_map.1 hb
  exact mul_nonneg (hm a ha) (hk _ b hb')

theorem mean_nonneg {α : Type} {m : Rand R α} (hm : Nonneg m) (f : α → R) (hf : ∀ p ∈ m, 0 ≤ f p.2) : 0 ≤ mean m f := by
  refine Multiset.sum_nonneg fun x hx => ?_
  obtain ⟨p, hp, rfl⟩ := Multiset.mem_map.1 hx
  exact mul_nonneg (hm p hp) (hf p hp)

end Rand

theorem nonneg_moverLoop (win : Win ℤ R) (maxDist : ℕ) (u : Worm ℤ) : ∀ n, Rand.Nonneg (moverLoop win maxDist u n)
  | 0 => nonneg_ret _
  | n + 1 => by
    unfold moverLoop
    refine nonneg_bind (nonneg_unif _) fun i => ?_
    cases u.getTime i with
    | none => exact nonneg_ret _
    | some t =>
      dsimp only
      split_ifs
      · refine nonneg_bind ?_ fun t' => ?_
        · unfold moverTime
          refine nonneg_bind (nonneg_coin (by norm_num) (by norm_num)) fun b => ?_
          split_ifs
          · exact nonneg_bind (nonneg_unif _) fun _ => nonneg_ret _
          · exact nonneg_unif _
        · split_ifs
          · exact nonneg_ret _
          · exact nonneg_moverLoop win maxDist u n
      · exact nonneg_moverLoop win maxDist u n

theorem mover_flow_nonneg (win : Win ℤ R) (maxDist : ℕ) (w : WCfg ℤ → R) (x y : WCfg ℤ) (hx : 0 < w x) (hy : 0 < w y) :
    0 ≤ flow w (moverPropose win maxDist) x y := by
  unfold flow moverPropose
  cases x.worm with
  | none => rw [mean_ret]; exact le_refl _
  | some u =>
    dsimp only
    rw [mean_bind]
    refine mean_nonneg (nonneg_moverLoop win maxDist u _) _ fun p _ => ?_
    cases p.2 with
    | none => rw [mean_ret]; exact le_refl _
    | some it =>
      rw [mean_ret]
      change 0 ≤ if _ then min 1 (w y / w x * 1) else 0
      split_ifs
      · exact le_min zero_le_one (mul_nonneg (div_nonneg hy.le hx.le) zero_le_one)
      · exact le_refl _

theorem moverTries_pos (nf : ℕ) (win : Win ℤ R) (kinds : List WormKind) (hk : ∀ k ∈ kinds, 0 < k.numTimes) (maxDist : ℕ) (x : WCfg ℤ)
    (hx : WCfg.OK nf win kinds x) : 0 < moverTries win maxDist x := by
  unfold moverTries
  cases hu : x.worm with
  | none => exact one_pos
  | some u =>
    rw [Option.elim_some]
    have h0 := moverFail_nonneg win maxDist u (hx.worm u hu).1
    refine Finset.sum_pos' (fun k _ => pow_nonneg h0 k) ⟨0, Finset.mem_range.2 (hk _ (hx.worm u hu).2.1), ?_⟩
    rw [pow_zero]; exact one_pos

/-- **C10.**  The distribution kept by `WormMover` (in detailed balance) is not the weight, but the weight divided by the number of
iterations of its loop expected at the configuration. -/
theorem C10_mover_distribution (nf : ℕ) (win : Win ℤ R) (hw : win.OK) (kinds : List WormKind) (hk : ∀ k ∈ kinds, 0 < k.numTimes)
    (maxDist : ℕ) (δ : R) (sw : WormKind → R)
    (w : WCfg ℤ → R) (x y : WCfg ℤ) (hx : WCfg.OK nf win kinds x) (hy : WCfg.OK nf win kinds y) (hwx : 0 < w x) (hwy : 0 < w y) :
    w x * spaceEta sw x * δ ^ wormDim x / moverTries win maxDist x * flow w (moverPropose win maxDist) x y =
      w y * spaceEta sw y * δ ^ wormDim y / moverTries win maxDist y * flow w (moverPropose win maxDist) y x := by
  have key := C10_mover_ratio nf win hw kinds maxDist w x y hx hy hwx hwy
  have px := (moverTries_pos nf win kinds hk maxDist x hx).ne'
  have py := (moverTries_pos nf win kinds hk maxDist y hy).ne'
  by_cases h : flow w (moverPropose win maxDist) x y = 0
  · rw [h] at key
    simp only [mul_zero, zero_mul] at key
    have : flow w (moverPropose win maxDist) y x = 0 := by
      have := (mul_eq_zero.1 key.symm).resolve_right px
      exact (mul_eq_zero.1 this).resolve_left hwy.ne'
    rw [h, this, mul_zero, mul_zero]
  · obtain ⟨e1, e2⟩ := mover_dim win maxDist w x y sw h
    rw [e1, e2]
    field_simp
    linear_combination spaceEta sw y * δ ^ wormDim y * key

/-- **C10 is violated.**  On any finite set of configurations with worms of at least two times, one call of `WormMover` leaves the weight unchanged if
and only if every two configurations between which it can move have the same probability that an iteration of its loop fails. -/
theorem C10_mover_stationary_iff (nf : ℕ) (win : Win ℤ R) (hw : win.OK) (kinds : List WormKind) (hk : ∀ k ∈ kinds, 2 ≤ k.numTimes)
    (maxDist : ℕ) (δ : R) (hδ : 0 < δ) (sw : WormKind → R) (hsw : ∀ k, 0 < sw k) (w : WCfg ℤ → R) (S : Finset (WCfg ℤ))
    (hS : ∀ x ∈ S, WCfg.OK nf win kinds x) (hwS : ∀ x ∈ S, 0 < w x) :
    StationaryOn S (fun x => w x * spaceEta sw x * δ ^ wormDim x) (flow w (moverPropose win maxDist)) ↔
      ∀ x ∈ S, ∀ y ∈ S, flow w (moverPropose win maxDist) x y ≠ 0 → ∀ u v, x.worm = some u → y.worm = some v →
        moverFail win maxDist u = moverFail win maxDist v := by
  have hk' : ∀ k ∈ kinds, 0 < k.numTimes := fun k h => by have := hk k h; omega
  have pos := fun x hx => moverTries_pos nf win kinds hk' maxDist x (hS x hx)
  have eta : ∀ x : WCfg ℤ, 0 < spaceEta sw x := by
    intro x
    unfold spaceEta
    cases x.worm with
    | none => exact one_pos
    | some u => exact hsw _
  let π : WCfg ℤ → R := fun x => w x * spaceEta sw x * δ ^ wormDim x / moverTries win maxDist x
  have e : StationaryOn S (fun x => w x * spaceEta sw x * δ ^ wormDim x) (flow w (moverPropose win maxDist)) ↔
      StationaryOn S (fun x => π x * moverTries win maxDist x) (flow w (moverPropose win maxDist)) := by
    have : ∀ x ∈ S, w x * spaceEta sw x * δ ^ wormDim x = π x * moverTries win maxDist x := fun x hx =>
      (div_mul_cancel₀ _ (pos x hx).ne').symm
    unfold StationaryOn
    refine forall₂_congr fun y hy => ?_
    simp only
    rw [← this y hy, Finset.sum_congr rfl fun x hx => congrArg (· * flow w (moverPropose win maxDist) x y) (this x hx)]
  rw [e, harmonic_const S π (moverTries win maxDist) _
    (fun x hx => div_pos (mul_pos (mul_pos (hwS x hx) (eta x)) (pow_pos hδ _)) (pos x hx))
    (fun x hx y hy => mover_flow_nonneg win maxDist w x y (hwS x hx) (hwS y hy))
    (fun x hx y hy => C10_mover_distribution nf win hw kinds hk' maxDist δ sw w x y (hS x hx) (hS y hy) (hwS x hx) (hwS y hy))]
  refine forall₂_congr fun x hx => forall₂_congr fun y hy => imp_congr_right fun hne => ?_
  have mono : ∀ (n : ℕ), 2 ≤ n → ∀ a b : R, 0 ≤ a → a < b → ∑ k ∈ Finset.range n, a ^ k < ∑ k ∈ Finset.range n, b ^ k := by
    intro n hn a b ha hab
    refine Finset.sum_lt_sum (fun k _ => pow_le_pow_left₀ ha hab.le k) ⟨1, Finset.mem_range.2 (by omega), ?_⟩
    simpa using hab
  cases hu : x.worm with
  | none =>
    refine absurd ?_ hne
    unfold flow moverPropose
    rw [hu]
    exact mean_ret _ _
  | some u =>
    cases hv : y.worm with
    | none =>
      have := (mover_dim win maxDist w x y (fun _ => 2) hne).2
      unfold spaceEta at this
      rw [hu, hv] at this
      norm_num at this
    | some v =>
      have hkind : v.kind = u.kind := by
        by_contra hn
        have := (mover_dim win maxDist w x y (fun k => if k = u.kind then 1 else 2) hne).2
        unfold spaceEta at this
        rw [hu, hv] at this
        simp [hn] at this
      have tu : moverTries win maxDist x = ∑ k ∈ Finset.range u.kind.numTimes, moverFail win maxDist u ^ k := by
        unfold moverTries; rw [hu]; rfl
      have tv : moverTries win maxDist y = ∑ k ∈ Finset.range u.kind.numTimes, moverFail win maxDist v ^ k := by
        unfold moverTries; rw [hv, ← hkind]; rfl
      have hn := hk _ ((hS x hx).worm u hu).2.1
      have hu0 := moverFail_nonneg win maxDist u ((hS x hx).worm u hu).1
      have hv0 := moverFail_nonneg win maxDist v ((hS y hy).worm v hv).1
      constructor
      · rintro h u' v' h1 h2
        rw [← Option.some.inj h1, ← Option.some.inj h2]
        rw [tu, tv] at h
        rcases lt_trichotomy (moverFail win maxDist u) (moverFail win maxDist v) with h3 | h3 | h3
        · exact absurd h (mono _ hn _ _ hu0 h3).ne
        · exact h3
        · exact absurd h (mono _ hn _ _ hv0 h3).ne'
      · intro h
        rw [tu, tv, h u v rfl rfl]

/-! ### Example -/

/-- The worm `G1` in the window `[0, 4)`: the annihilation operator at `t`, the creation operator outside the window. -/
def exG1 (t : ℤ) : WCfg ℤ := ⟨[(1, 0)], [(2, 0)], some ⟨.green 1, [t, 9], [0, 0]⟩⟩

theorem exG1_ok (t : ℤ) : WCfg.OK 1 exWinZ [.green 1] (exG1 t) := by
  have e : WCfg.OK 1 exWinZ [.green 1] ⟨[(1, 0)], [(2, 0)], none⟩ := ⟨⟨by decide, by decide, by decide, by decide⟩, by simp⟩
  refine ⟨⟨e.1.1, e.1.2, e.1.3, e.1.4⟩, ?_⟩
  rintro w h
  have := Option.some.inj h
  subst this
  refine ⟨⟨rfl, rfl⟩, by simp, by simp, ?_⟩
  intro t' ht' hin
  have : 0 ≤ t' ∧ t' < 4 := of_decide_eq_true hin
  have : t' = 0 ∨ t' = 1 ∨ t' = 2 ∨ t' = 3 := by omega
  rcases this with rfl | rfl | rfl | rfl <;> decide

/-- All places of the annihilation operator in the window. -/
def exG1s : Finset (WCfg ℤ) := (Finset.Ico (0 : ℤ) 4).map ⟨exG1, fun a b h => by simpa [exG1] using h⟩

theorem exG1s_mem (x : WCfg ℤ) : x ∈ exG1s ↔ ∃ t : ℤ, (0 ≤ t ∧ t < 4) ∧ exG1 t = x := by
  simp [exG1s]
  rfl

/-- With equal weights of the four configurations one call of the mover changes their distribution. -/
example : (∀ x ∈ exG1s, WCfg.OK 1 exWinZ [.green 1] x) ∧
    ¬ StationaryOn exG1s (fun x => 1 * spaceEta (fun _ => 1) x * 1 ^ wormDim x)
      (flow (fun _ => (1 : ℚ)) (moverPropose exWinZ 1)) := by
  have hok : ∀ x ∈ exG1s, WCfg.OK 1 exWinZ [.green 1] x := by
    intro x hx
    obtain ⟨t, h, rfl⟩ := (exG1s_mem x).1 hx
    exact exG1_ok t
  refine ⟨hok, ?_⟩
  rw [C10_mover_stationary_iff 1 exWinZ ⟨by decide, by decide, by decide, by decide +kernel⟩ [.green 1] (by decide) 1 1 one_pos
    (fun _ => 1) (fun _ => one_pos) (fun _ => 1) _ hok (fun _ _ => one_pos)]
  intro h
  have hne : flow (fun _ => (1 : ℚ)) (moverPropose exWinZ 1) (exG1 0) (exG1 1) ≠ 0 := by decide +kernel
  have h1 := h _ ((exG1s_mem _).2 ⟨0, by decide, rfl⟩) _ ((exG1s_mem _).2 ⟨1, by decide, rfl⟩) hne _ _ rfl rfl
  have h2 : moverFail exWinZ 1 ⟨.green 1, [0, 9], [0, 0]⟩ = 13 / 20 := by decide +kernel
  have h3 : moverFail exWinZ 1 ⟨.green 1, [1, 9], [0, 0]⟩ = 1 / 2 := by decide +kernel
  rw [h2, h3] at h1
  norm_num at h1

end CTHyb
