import Verif.Lemmas.Compose
import Verif.Lemmas.PotentialOrder

/-! # From one orthonormal frame to another (helper file, no property theorems) -/

namespace QS

open Finset NDArray BasisSet

/-- The coefficients of the columns of `C` in the columns of `C'`. -/
noncomputable def frameChange (n l : ℕ) (C C' : NDArray ℂ) : NDArray ℂ :=
  ofFn .complex128 [n, l] fun i => ∑ k ∈ range n, star (C'.get [k, i.getD 0 0]) * C.get [k, i.getD 1 0]

theorem frameChange_get {n l : ℕ} (C C' : NDArray ℂ) {p q : ℕ} (hp : p < n) (hq : q < l) :
    (frameChange n l C C').get [p, q] = ∑ k ∈ range n, star (C'.get [k, p]) * C.get [k, q] :=
  ofFn_get_of (by exact ⟨hp, hq, trivial⟩)

/-- As many orthonormal columns as rows: the rows are orthonormal. -/
theorem rows_of_columns {n : ℕ} {C : NDArray ℂ}
    (uni : ∀ p < n, ∀ q < n, ∑ k ∈ range n, star (C.get [k, p]) * C.get [k, q] = kd p q) :
    ∀ j < n, ∀ k < n, ∑ q ∈ range n, C.get [j, q] * star (C.get [k, q]) = kd j k := by
  set M : Matrix (Fin n) (Fin n) ℂ := Matrix.of fun k q => C.get [k.1, q.1] with hM
  have h1 : M.conjTranspose * M = 1 := by
    ext p q
    rw [Matrix.mul_apply, Matrix.one_apply]
    simp only [Matrix.conjTranspose_apply, hM, Matrix.of_apply]
    rw [Fin.sum_univ_eq_sum_range (fun k => star (C.get [k, p.1]) * C.get [k, q.1]) n, uni _ p.2 _ q.2, kd]
    exact if_congr ⟨Fin.ext, fun e => by rw [e]⟩ rfl rfl
  have h2 := mul_eq_one_comm.1 h1
  intro j hj k hk
  have h3 := congrFun (congrFun h2 ⟨j, hj⟩) ⟨k, hk⟩
  rw [Matrix.mul_apply, Matrix.one_apply] at h3
  simp only [Matrix.conjTranspose_apply, hM, Matrix.of_apply] at h3
  rw [Fin.sum_univ_eq_sum_range (fun q => C.get [j, q] * star (C.get [k, q])) n] at h3
  rw [h3, kd]
  exact if_congr ⟨fun e => congrArg Fin.val e, fun e => by subst e; rfl⟩ rfl rfl

variable {n l : ℕ} {C C' : NDArray ℂ}

/-- The columns of `C` from those of `C'`. -/
theorem frameChange_back (uni' : ∀ p < n, ∀ q < n, ∑ k ∈ range n, star (C'.get [k, p]) * C'.get [k, q] = kd p q) {j p : ℕ}
    (hj : j < n) (hp : p < l) : ∑ q ∈ range n, C'.get [j, q] * (frameChange n l C C').get [q, p] = C.get [j, p] := by
  have rows := rows_of_columns uni'
  rw [sum_congr rfl fun q hq => by rw [frameChange_get C C' (mem_range.1 hq) hp, mul_sum], sum_comm,
    sum_congr rfl (g := fun k => kd j k * C.get [k, p]) fun k hk => by
      rw [← rows j hj k (mem_range.1 hk), sum_mul]
      exact sum_congr rfl fun q _ => by ring]
  unfold kd
  simp [hj]

theorem frameChange_uni (uni : ∀ p < l, ∀ q < l, ∑ k ∈ range n, star (C.get [k, p]) * C.get [k, q] = kd p q)
    (uni' : ∀ p < n, ∀ q < n, ∑ k ∈ range n, star (C'.get [k, p]) * C'.get [k, q] = kd p q) :
    ∀ p < l, ∀ q < l, ∑ a ∈ range n, star ((frameChange n l C C').get [a, p]) * (frameChange n l C C').get [a, q] = kd p q := by
  intro p hp q hq
  rw [← uni p hp q hq, sum_congr rfl fun a ha => by
    rw [frameChange_get C C' (mem_range.1 ha) hp, star_sum, sum_mul], sum_comm]
  refine sum_congr rfl fun k hk => ?_
  rw [← frameChange_back (C := C) uni' (mem_range.1 hk) hq, mul_sum]
  refine sum_congr rfl fun a _ => ?_
  rw [star_mul', star_star]
  ring

/-- The columns again, from the left. -/
theorem frameChange_left (uni' : ∀ p < n, ∀ q < n, ∑ k ∈ range n, star (C'.get [k, p]) * C'.get [k, q] = kd p q)
    (hC : C.shape = [n, l]) (hC' : C'.shape = [n, n]) {j p : ℕ} (hj : j < n) (hp : p < l) :
    mm (range n) (fun p a => (frameChange n l C C').conj.T.get [p, a]) (fun a k => C'.conj.T.get [a, k]) p j =
      C.conj.T.get [p, j] := by
  unfold mm
  rw [conjT_get2 C hC, ← frameChange_back (C := C) uni' hj hp, star_sum]
  refine sum_congr rfl fun a _ => ?_
  dsimp only
  rw [conjT_get2 (frameChange n l C C') rfl, conjT_get2 C' hC', star_mul']
  ring

theorem frameChange_one (uni' : ∀ p < n, ∀ q < n, ∑ k ∈ range n, star (C'.get [k, p]) * C'.get [k, q] = kd p q)
    (hC : C.shape = [n, l]) (hC' : C'.shape = [n, n]) {g h : ℕ → ℕ → ℂ} {h' : ℕ → ℕ → ℂ}
    (e : ∀ p < l, ∀ q < l, h p q = ∑ j ∈ range n, ∑ k ∈ range n, C.conj.T.get [p, j] * g j k * C.get [k, q])
    (e' : ∀ p < n, ∀ q < n, h' p q = ∑ j ∈ range n, ∑ k ∈ range n, C'.conj.T.get [p, j] * g j k * C'.get [k, q]) {p q : ℕ}
    (hp : p < l) (hq : q < l) : h p q =
      ∑ a ∈ range n, ∑ b ∈ range n, (frameChange n l C C').conj.T.get [p, a] * h' a b * (frameChange n l C C').get [b, q] := by
  symm
  rw [e p hp q hq, sum_congr rfl fun a ha => sum_congr rfl fun b hb => by rw [e' a (mem_range.1 ha) b (mem_range.1 hb)],
    sandwich_sandwich (range n) (range n) (range n) (range n) (fun p a => (frameChange n l C C').conj.T.get [p, a])
      (fun a k => C'.conj.T.get [a, k]) g (fun k b => C'.get [k, b]) fun b q => (frameChange n l C C').get [b, q]]
  refine sum_congr rfl fun j hj => sum_congr rfl fun k hk => ?_
  rw [frameChange_left uni' hC hC' (mem_range.1 hj) hp]
  unfold mm
  rw [frameChange_back uni' (mem_range.1 hk) hq]

theorem frameChange_two (uni' : ∀ p < n, ∀ q < n, ∑ k ∈ range n, star (C'.get [k, p]) * C'.get [k, q] = kd p q)
    (hC : C.shape = [n, l]) (hC' : C'.shape = [n, n]) {G U U' : NDArray ℂ} (e : IsTwoBody C C.conj.T n l G U)
    (e' : IsTwoBody C' C'.conj.T n n G U') :
    IsTwoBody (frameChange n l C C') (frameChange n l C C').conj.T n l U' U := by
  refine ⟨e.1, fun p hp q hq r hr s hs => ?_⟩
  set D := frameChange n l C C' with hD
  have h1 : ∀ a ∈ range n, ∀ b ∈ range n, ∀ c ∈ range n, ∀ d ∈ range n, U'.get [a, b, c, d] =
      ∑ A ∈ range n ×ˢ range n, ∑ B ∈ range n ×ˢ range n, (C'.conj.T.get [a, A.1] * C'.conj.T.get [b, A.2]) *
        G.get [A.1, A.2, B.1, B.2] * (C'.get [B.1, c] * C'.get [B.2, d]) := fun a ha b hb c hc d hd => by
    rw [e'.2 a (mem_range.1 ha) b (mem_range.1 hb) c (mem_range.1 hc) d (mem_range.1 hd)]
    exact four_eq (range n) (range n) (fun a A => C'.conj.T.get [a, A]) (fun a b c d => G.get [a, b, c, d])
      (fun B c => C'.get [B, c]) a b c d
  symm
  rw [e.2 p hp q hq r hr s hs, sum_congr rfl fun a ha => sum_congr rfl fun b hb => sum_congr rfl fun c hc =>
    sum_congr rfl fun d hd => by rw [h1 a ha b hb c hc d hd],
    four_eq (range n) (range n) (fun p a => D.conj.T.get [p, a])
    (fun a b c d => ∑ A ∈ range n ×ˢ range n, ∑ B ∈ range n ×ˢ range n, (C'.conj.T.get [a, A.1] * C'.conj.T.get [b, A.2]) *
        G.get [A.1, A.2, B.1, B.2] * (C'.get [B.1, c] * C'.get [B.2, d])) (fun c r => D.get [c, r]) p q r s,
    sandwich_sandwich (range n ×ˢ range n) (range n ×ˢ range n) (range n ×ˢ range n) (range n ×ˢ range n)
    (fun (P : ℕ × ℕ) (A : ℕ × ℕ) => D.conj.T.get [P.1, A.1] * D.conj.T.get [P.2, A.2])
    (fun (P : ℕ × ℕ) (A : ℕ × ℕ) => C'.conj.T.get [P.1, A.1] * C'.conj.T.get [P.2, A.2])
    (fun A B => G.get [A.1, A.2, B.1, B.2])
    (fun (P : ℕ × ℕ) (A : ℕ × ℕ) => C'.get [P.1, A.1] * C'.get [P.2, A.2])
    (fun (P : ℕ × ℕ) (A : ℕ × ℕ) => D.get [P.1, A.1] * D.get [P.2, A.2]) (p, q) (r, s),
    four_eq (range n) (range n) (fun p a => C.conj.T.get [p, a]) (fun a b c d => G.get [a, b, c, d]) (fun c r => C.get [c, r]) p q r s]
  refine sum_congr rfl fun A hA => sum_congr rfl fun B hB => ?_
  obtain ⟨hA1, hA2⟩ := mem_product.1 hA
  obtain ⟨hB1, hB2⟩ := mem_product.1 hB
  rw [← frameChange_left uni' hC hC' (mem_range.1 hA1) hp, ← frameChange_left uni' hC hC' (mem_range.1 hA2) hq,
    ← frameChange_back (C := C) uni' (mem_range.1 hB1) hr, ← frameChange_back (C := C) uni' (mem_range.1 hB2) hs, ← hD]
  rw [← mm_prod (range n) (fun p a => D.conj.T.get [p, a]) (fun p a => C'.conj.T.get [p, a]) p q A.1 A.2]
  congr 1
  exact mm_prod (range n) (fun p a => C'.get [p, a]) (fun p a => D.get [p, a]) B.1 B.2 r s

end QS
