import Verif.ResizableMatrix
import Mathlib.Algebra.Order.Ring.Int
import Mathlib.Tactic.Common

/-! C21: `ResizableMatrix` refines a plain matrix without hidden memory. -/

namespace CTHyb

/-- Specification: a matrix of given size; an entry is `none` as long as its value is not
determined by the history. -/
structure SMat (K : Type*) where
  n : ℕ
  m : ℕ
  val : ℕ → ℕ → Option K

/-- The meaning of an operation on the specification matrix.  Entries outside the size are
always `none`: what leaves the matrix is forgotten. -/
def SMat.step {K : Type*} [Zero K] [One K] (S : SMat K) : RMatOp K → SMat K
  | .construct n m => ⟨n, m, fun _ _ => none⟩
  | .constructFill n m v => ⟨n, m, fun i j => if i < n ∧ j < m then some v else none⟩
  | .conservativeResize n m => ⟨n, m, fun i j => if i < n ∧ j < m then S.val i j else none⟩
  | .destructiveResize n m => ⟨n, m, fun _ _ => none⟩
  | .removeRowColLast => ⟨S.n - 1, S.m - 1, fun i j => if i < S.n - 1 ∧ j < S.m - 1 then S.val i j else none⟩
  | .removeRowLast => ⟨S.n - 1, S.m, fun i j => if i < S.n - 1 then S.val i j else none⟩
  | .removeColLast => ⟨S.n, S.m - 1, fun i j => if j < S.m - 1 then S.val i j else none⟩
  | .swapRow a b => ⟨S.n, S.m, fun i j => S.val (if i = a then b else if i = b then a else i) j⟩
  | .swapCol a b => ⟨S.n, S.m, fun i j => S.val i (if j = a then b else if j = b then a else j)⟩
  | .swapRowCol a b => ⟨S.n, S.m, fun i j => S.val (if i = a then b else if i = b then a else i)
      (if j = a then b else if j = b then a else j)⟩
  | .write i j v => ⟨S.n, S.m, fun x y => if x = i ∧ y = j then some v else S.val x y⟩
  | .clear => ⟨S.n, S.m, fun i j => if i < S.n ∧ j < S.m then some 0 else none⟩
  | .setIdentity => ⟨S.n, S.m, fun i j => if i < S.n ∧ j < S.m then some (if i = j then 1 else 0) else none⟩
  | .assign n m f => ⟨n, m, fun i j => if i < n ∧ j < m then some (f i j) else none⟩

/-- Allowed use: indices inside the current size, as the asserts of the class demand (with `<`). -/
def SMat.allowed {K : Type*} (S : SMat K) : RMatOp K → Prop
  | .removeRowColLast => 0 < S.n ∧ 0 < S.m
  | .removeRowLast => 0 < S.n
  | .removeColLast => 0 < S.m
  | .swapRow a b => a < S.n ∧ b < S.n
  | .swapCol a b => a < S.m ∧ b < S.m
  | .swapRowCol a b => a < S.n ∧ b < S.n ∧ a < S.m ∧ b < S.m
  | .write i j _ => i < S.n ∧ j < S.m
  | .setIdentity => S.n = S.m
  | _ => True

/-- A whole history of allowed operations. -/
def SMat.allowedAll {K : Type*} [Zero K] [One K] (S : SMat K) : List (RMatOp K) → Prop
  | [] => True
  | o :: os => S.allowed o ∧ (S.step o).allowedAll os

def SMat.run {K : Type*} [Zero K] [One K] (S : SMat K) (os : List (RMatOp K)) : SMat K :=
  os.foldl SMat.step S

/-- Refinement relation. -/
structure RMat.Refines {K : Type*} (A : RMat K) (S : SMat K) : Prop where
  s1 : A.size1 = S.n
  s2 : A.size2 = S.m
  m1 : A.size1 ≤ A.mem1
  m2 : A.size2 ≤ A.mem2
  un : A.alloc = false → A.size1 = 0 ∧ A.size2 = 0
  inside : ∀ i j v, S.val i j = some v → i < S.n ∧ j < S.m
  val : ∀ i j v, S.val i j = some v → A.cell i j = some v

theorem lt_grow (n : ℕ) : n < grow n := by unfold grow; omega

theorem step_refines {K : Type*} [Zero K] [One K] {A : RMat K} {S : SMat K} (h : A.Refines S)
    (o : RMatOp K) (ho : S.allowed o) : ∃ B, A.step o = some B ∧ B.Refines (S.step o) := by
  obtain ⟨s1, s2, m1, m2, un, inside, val⟩ := h
  cases o with
  | construct n m =>
    exact ⟨_, rfl, rfl, rfl, le_rfl, le_rfl, by simp, by simp [SMat.step], by simp [SMat.step]⟩
  | constructFill n m v =>
    refine ⟨_, rfl, rfl, rfl, le_rfl, le_rfl, by simp, ?_, ?_⟩
    · intro i j v h; simp only [SMat.step] at h ⊢; split at h <;> simp_all
    · intro i j v h; exact h
  | conservativeResize n m =>
    refine ⟨_, rfl, ?_⟩
    have key : ∀ i j v, (SMat.step S (.conservativeResize n m)).val i j = some v →
        (i < n ∧ j < m) ∧ S.val i j = some v := by
      intro i j v h
      simp only [SMat.step] at h
      split at h
      · exact ⟨by assumption, h⟩
      · simp at h
    unfold RMat.conservativeResize
    by_cases ha : A.alloc = false
    · obtain ⟨z1, z2⟩ := un ha
      simp only [ha, if_true]
      refine ⟨rfl, rfl, le_rfl, le_rfl, by simp, fun i j v h => (key i j v h).1, ?_⟩
      intro i j v h
      have := inside i j v (key i j v h).2
      omega
    · have ha' : A.alloc = true := by simpa using ha
      simp only [ha', Bool.true_eq_false, if_false]
      by_cases hg : A.mem1 < n ∨ A.mem2 < m
      · simp only [hg, if_true, eigenConservativeResize]
        refine ⟨rfl, rfl, (lt_grow n).le, (lt_grow m).le, by simp, fun i j v h => (key i j v h).1, ?_⟩
        intro i j v h
        obtain ⟨⟨k1, k2⟩, k3⟩ := key i j v h
        have hin := inside i j v k3
        have c : i < A.mem1 ∧ i < grow n ∧ j < A.mem2 ∧ j < grow m :=
          ⟨by omega, lt_trans k1 (lt_grow n), by omega, lt_trans k2 (lt_grow m)⟩
        simp only [c, and_self, if_true]
        exact val i j v k3
      · simp only [hg, if_false]
        rw [not_or, not_lt, not_lt] at hg
        exact ⟨rfl, rfl, hg.1, hg.2, by simp, fun i j v h => (key i j v h).1,
          fun i j v h => val i j v (key i j v h).2⟩
  | destructiveResize n m =>
    refine ⟨_, rfl, ?_⟩
    unfold RMat.destructiveResize
    by_cases ha : A.alloc = false
    · simp only [ha, if_true]
      exact ⟨rfl, rfl, le_rfl, le_rfl, by simp, by simp [SMat.step], by simp [SMat.step]⟩
    · have ha' : A.alloc = true := by simpa using ha
      simp only [ha', Bool.true_eq_false, if_false]
      by_cases hg : A.mem1 < n ∨ A.mem2 < m
      · simp only [hg, if_true, eigenResize]
        exact ⟨rfl, rfl, (lt_grow n).le, (lt_grow m).le, by simp, by simp [SMat.step], by simp [SMat.step]⟩
      · simp only [hg, if_false]
        rw [not_or, not_lt, not_lt] at hg
        exact ⟨rfl, rfl, hg.1, hg.2, by simp, by simp [SMat.step], by simp [SMat.step]⟩
  | removeRowColLast =>
    have ho' : 0 < A.size1 ∧ 0 < A.size2 := by rw [s1, s2]; exact ho
    refine ⟨_, by simp only [RMat.step, ho', and_self, if_true]; rfl, ?_⟩
    refine ⟨by simp [s1, SMat.step], by simp [s2, SMat.step], by simp; omega, by simp; omega,
      fun h => by have := un h; simp; omega, ?_, ?_⟩
    · intro i j v h; simp only [SMat.step] at h ⊢; split at h <;> simp_all
    · intro i j v h; simp only [SMat.step] at h; split at h
      · exact val i j v h
      · simp at h
  | removeRowLast =>
    have ho' : 0 < A.size1 := by rw [s1]; exact ho
    refine ⟨_, by simp only [RMat.step, ho', if_true]; rfl, ?_⟩
    refine ⟨by simp [s1, SMat.step], by simp [s2, SMat.step], by simp; omega, by simp; omega,
      fun h => by have := un h; simp; omega, ?_, ?_⟩
    · intro i j v h; simp only [SMat.step] at h ⊢; split at h
      · exact ⟨by assumption, (inside i j v h).2⟩
      · simp at h
    · intro i j v h; simp only [SMat.step] at h; split at h
      · exact val i j v h
      · simp at h
  | removeColLast =>
    have ho' : 0 < A.size2 := by rw [s2]; exact ho
    refine ⟨_, by simp only [RMat.step, ho', if_true]; rfl, ?_⟩
    refine ⟨by simp [s1, SMat.step], by simp [s2, SMat.step], by simp; omega, by simp; omega,
      fun h => by have := un h; simp; omega, ?_, ?_⟩
    · intro i j v h; simp only [SMat.step] at h ⊢; split at h
      · exact ⟨(inside i j v h).1, by assumption⟩
      · simp at h
    · intro i j v h; simp only [SMat.step] at h; split at h
      · exact val i j v h
      · simp at h
  | swapRow a b =>
    have hc : a < A.mem1 ∧ b < A.mem1 := by have : a < S.n ∧ b < S.n := ho; omega
    refine ⟨_, by simp only [RMat.step, RMat.swapRow, hc, and_self, if_true]; rfl, ?_⟩
    refine ⟨s1, s2, m1, m2, un, ?_, fun i j v h => val _ _ _ h⟩
    intro i j v h
    have hi := inside _ _ _ h
    have : a < S.n ∧ b < S.n := ho
    refine ⟨?_, hi.2⟩
    show i < S.n
    have h1 := hi.1
    split at h1
    · omega
    · split at h1 <;> omega
  | swapCol a b =>
    have hc : a < A.mem2 ∧ b < A.mem2 := by have : a < S.m ∧ b < S.m := ho; omega
    refine ⟨_, by simp only [RMat.step, RMat.swapCol, hc, and_self, if_true]; rfl, ?_⟩
    refine ⟨s1, s2, m1, m2, un, ?_, fun i j v h => val _ _ _ h⟩
    intro i j v h
    have hi := inside _ _ _ h
    have : a < S.m ∧ b < S.m := ho
    refine ⟨hi.1, ?_⟩
    show j < S.m
    have h1 := hi.2
    split at h1
    · omega
    · split at h1 <;> omega
  | swapRowCol a b =>
    have hab : a < S.n ∧ b < S.n ∧ a < S.m ∧ b < S.m := ho
    have hc : a < A.mem2 ∧ b < A.mem2 := by omega
    have hc' : a < A.mem1 ∧ b < A.mem1 := by omega
    refine ⟨_, by simp only [RMat.step, RMat.swapCol, RMat.swapRow, hc, hc', and_self, if_true,
      Option.bind_some]; rfl, ?_⟩
    refine ⟨s1, s2, m1, m2, un, ?_, fun i j v h => val _ _ _ h⟩
    intro i j v h
    have hi := inside _ _ _ h
    constructor
    · show i < S.n
      have h1 := hi.1
      split at h1
      · omega
      · split at h1 <;> omega
    · show j < S.m
      have h1 := hi.2
      split at h1
      · omega
      · split at h1 <;> omega
  | write i j v =>
    have hij : i < S.n ∧ j < S.m := ho
    have hc : i < A.mem1 ∧ j < A.mem2 := by omega
    refine ⟨_, by simp only [RMat.step, RMat.write, hc, and_self, if_true]; rfl, ?_⟩
    refine ⟨s1, s2, m1, m2, un, ?_, ?_⟩
    · intro x y w h
      simp only [SMat.step] at h ⊢
      split at h
      · rename_i hxy; rw [hxy.1, hxy.2]; exact hij
      · exact inside x y w h
    · intro x y w h
      simp only [SMat.step] at h ⊢
      split at h
      · simp_all
      · rename_i hxy; simp only [hxy, if_false]; exact val x y w h
  | clear =>
    by_cases ha : A.alloc = true
    · refine ⟨_, by simp only [RMat.step, ha, if_true, RMat.fillBlock, m1, m2, and_self]; rfl, ?_⟩
      refine ⟨s1, s2, m1, m2, by simp, ?_, ?_⟩
      · intro x y w h; simp only [SMat.step] at h ⊢; split at h <;> simp_all
      · intro x y w h; simp only [SMat.step] at h ⊢; rw [s1, s2]; split at h <;> simp_all
    · have ha' : A.alloc = false := by simpa using ha
      obtain ⟨z1, z2⟩ := un ha'
      refine ⟨A, by simp [RMat.step, ha'], s1, s2, m1, m2, un, ?_, ?_⟩
      · intro x y w h; simp only [SMat.step] at h ⊢; split at h <;> simp_all
      · intro x y w h; simp only [SMat.step] at h ⊢; split at h
        · omega
        · simp at h
  | setIdentity =>
    by_cases hp : 0 < A.size1
    · refine ⟨_, by simp only [RMat.step, hp, if_true, RMat.fillBlock, m1, m2, and_self]; rfl, ?_⟩
      refine ⟨s1, s2, m1, m2, un, ?_, ?_⟩
      · intro x y w h; simp only [SMat.step] at h ⊢; split at h <;> simp_all
      · intro x y w h; simp only [SMat.step] at h ⊢; rw [s1, s2]; split at h <;> simp_all
    · refine ⟨A, by simp [RMat.step, hp], s1, s2, m1, m2, un, ?_, ?_⟩
      · intro x y w h; simp only [SMat.step] at h ⊢; split at h <;> simp_all
      · intro x y w h; simp only [SMat.step] at h ⊢; split at h
        · omega
        · simp at h
  | assign n m f =>
    refine ⟨_, rfl, rfl, rfl, le_rfl, le_rfl, by simp, ?_, ?_⟩
    · intro i j v h; simp only [SMat.step] at h ⊢; split at h <;> simp_all
    · intro i j v h; exact h

theorem run_refines {K : Type*} [Zero K] [One K] : ∀ (os : List (RMatOp K)) (A : RMat K)
    (S : SMat K), A.Refines S → S.allowedAll os → ∃ B, A.run os = some B ∧ B.Refines (S.run os) := by
  intro os
  induction os with
  | nil => intro A S h _; exact ⟨A, rfl, h⟩
  | cons o os ih =>
    intro A S h hall
    obtain ⟨B, hB, hR⟩ := step_refines h o hall.1
    obtain ⟨C, hC, hR'⟩ := ih B _ hR hall.2
    exact ⟨C, by simp [RMat.run, hB, hC], hR'⟩

/-- **C21.** Every history of allowed operations, starting from a default constructed matrix, runs
without access outside the allocated memory; afterwards the sizes are those of the
specification, and every entry whose value is determined by the history (written, and not since
then outside the matrix or destroyed by a destructive resize) is read back. -/
theorem C21_refines {K : Type*} [Zero K] [One K] (os : List (RMatOp K))
    (h : SMat.allowedAll (⟨0, 0, fun _ _ => none⟩ : SMat K) os) :
    ∃ A, (RMat.empty : RMat K).run os = some A ∧
      let S := (⟨0, 0, fun _ _ => none⟩ : SMat K).run os
      A.size1 = S.n ∧ A.size2 = S.m ∧ ∀ i j v, S.val i j = some v → A.read i j = some v := by
  obtain ⟨A, hA, hR⟩ := run_refines os RMat.empty ⟨0, 0, fun _ _ => none⟩
    ⟨rfl, rfl, le_rfl, le_rfl, fun _ => ⟨rfl, rfl⟩, by simp, by simp⟩ h
  refine ⟨A, hA, hR.s1, hR.s2, ?_⟩
  intro i j v hv
  have hin := hR.inside i j v hv
  have c : i < A.mem1 ∧ j < A.mem2 := by
    have := hR.m1; have := hR.m2; have := hR.s1; have := hR.s2; omega
  simp only [RMat.read, c, and_self, if_true]
  exact hR.val i j v hv

/-- **C21.** After any allowed history the whole matrix lies in the allocated memory, row index and
column index each, and what can be read lies in this memory. -/
theorem C21_memory {K : Type*} [Zero K] [One K] (os : List (RMatOp K))
    (h : SMat.allowedAll (⟨0, 0, fun _ _ => none⟩ : SMat K) os) (A : RMat K)
    (hA : (RMat.empty : RMat K).run os = some A) :
    A.size1 ≤ A.mem1 ∧ A.size2 ≤ A.mem2 ∧
      ∀ i j, (A.read i j).isSome → i < A.mem1 ∧ j < A.mem2 := by
  obtain ⟨B, hB, hR⟩ := run_refines os RMat.empty ⟨0, 0, fun _ _ => none⟩
    ⟨rfl, rfl, le_rfl, le_rfl, fun _ => ⟨rfl, rfl⟩, by simp, by simp⟩ h
  rw [hA] at hB
  obtain rfl : A = B := Option.some.inj hB
  refine ⟨hR.m1, hR.m2, fun i j hr => ?_⟩
  by_contra hc
  rw [RMat.read, if_neg hc] at hr
  simp at hr

/-- **C21**, directly on the implementation: after any allowed history a conservative resize leaves
the result of reading any element inside both the old and the new size unchanged, whether or not
memory is reallocated. -/
theorem C21_resize_keeps {K : Type*} [Zero K] [One K] (os : List (RMatOp K))
    (h : SMat.allowedAll (⟨0, 0, fun _ _ => none⟩ : SMat K) os) (A : RMat K)
    (hA : (RMat.empty : RMat K).run os = some A) (n m i j : ℕ) (hi : i < A.size1) (hj : j < A.size2)
    (hn : i < n) (hm : j < m) : (A.conservativeResize n m).read i j = A.read i j := by
  obtain ⟨B, hB, hR⟩ := run_refines os RMat.empty ⟨0, 0, fun _ _ => none⟩
    ⟨rfl, rfl, le_rfl, le_rfl, fun _ => ⟨rfl, rfl⟩, by simp, by simp⟩ h
  rw [hA] at hB
  obtain rfl : A = B := Option.some.inj hB
  have h1 := hR.m1
  have h2 := hR.m2
  have ha : A.alloc = true := by
    by_contra hc
    have := hR.un (by simpa using hc)
    omega
  have gn := lt_grow n
  have gm := lt_grow m
  have c1 : i < A.mem1 ∧ j < A.mem2 := by omega
  unfold RMat.conservativeResize RMat.read
  by_cases hg : A.mem1 < n ∨ A.mem2 < m
  · have c2 : i < grow n ∧ j < grow m := by omega
    simp [ha, hg, eigenConservativeResize, c1, c2]
  · simp [ha, hg, c1]

/-- A concrete history with growth beyond the memory, in which one memory dimension shrinks. -/
example : let os : List (RMatOp ℤ) := [.conservativeResize 2 9, .write 1 0 5, .write 0 1 7,
      .conservativeResize 2 2, .conservativeResize 4 2, .swapRow 1 3, .conservativeResize 4 9]
    SMat.allowedAll (⟨0, 0, fun _ _ => none⟩ : SMat ℤ) os ∧
      (((RMat.empty : RMat ℤ).run os).bind fun A => A.read 3 0) = some 5 ∧
      (((RMat.empty : RMat ℤ).run os).bind fun A => A.read 0 1) = some 7 := by
  refine ⟨by simp [SMat.allowedAll, SMat.allowed, SMat.step], by decide +kernel, by decide +kernel⟩

end CTHyb
