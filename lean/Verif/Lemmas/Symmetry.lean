import Verif.Lemmas.Compose
import Verif.Spec.Symmetry

/-! # Symmetries under a change of basis (helper file, no property theorems) -/

namespace QS

open Finset

namespace BasisSet
variable {K : Type} [PyScalar K]

open NDArray PyM

theorem oneBodyArr_herm {x C : NDArray K} {l n : ℕ} (hC : C.shape = [l, n]) (h : HermMat l x) :
    HermMat n (oneBodyArr x C C.conj.T n l l n) := by
  intro p hp q hq
  rw [oneBodyArr_get hp hq, oneBodyArr_get hq hp]
  simp only [star_sum]
  rw [sum_comm]
  refine sum_congr rfl fun a ha => sum_congr rfl fun b hb => ?_
  rw [conjT_get2 C hC, conjT_get2 C hC, h b (mem_range.1 hb) a (mem_range.1 ha)]
  simp only [star_mul', star_star]
  ring

theorem dipoleArr_herm {x C : NDArray K} {dim l n : ℕ} (hC : C.shape = [l, n])
    (h : HermDip dim l x) : HermDip dim n (dipoleArr x C C.conj.T dim l n) := by
  intro i hi p hp q hq
  rw [dipoleArr_get hi hp hq, dipoleArr_get hi hq hp]
  simp only [star_sum]
  rw [sum_comm]
  refine sum_congr rfl fun a ha => sum_congr rfl fun b hb => ?_
  rw [conjT_get2 C hC, conjT_get2 C hC, h i hi b (mem_range.1 hb) a (mem_range.1 ha)]
  simp only [star_mul', star_star]
  ring

theorem sum4_swap_pairs {K : Type} [AddCommMonoid K] (s t : Finset ℕ) (f : ℕ → ℕ → ℕ → ℕ → K) :
    ∑ a ∈ s, ∑ b ∈ s, ∑ c ∈ t, ∑ d ∈ t, f a b c d =
      ∑ c ∈ t, ∑ d ∈ t, ∑ a ∈ s, ∑ b ∈ s, f a b c d := by
  have h := sum_comm (s := s ×ˢ s) (t := t ×ˢ t) (f := fun A B => f A.1 A.2 B.1 B.2)
  simpa only [sum_product] using h

theorem twoBodyArr_herm {x C : NDArray K} {l n : ℕ} (hC : C.shape = [l, n]) (h : HermU l x) :
    HermU n (twoBodyArr x C C.conj.T l n n) := by
  intro p hp q hq r hr s hs
  rw [twoBodyArr_get hp hq hr hs, twoBodyArr_get hr hs hp hq]
  simp only [star_sum]
  rw [sum4_swap_pairs]
  refine sum_congr rfl fun a ha => sum_congr rfl fun b hb => sum_congr rfl fun c hc =>
    sum_congr rfl fun d hd => ?_
  rw [conjT_get2 C hC, conjT_get2 C hC, conjT_get2 C hC, conjT_get2 C hC,
    h c (mem_range.1 hc) d (mem_range.1 hd) a (mem_range.1 ha) b (mem_range.1 hb)]
  simp only [star_mul', star_star]
  ring

theorem twoBodyArr_exch {x C D : NDArray K} {l n : ℕ} (h : ExchU l x) :
    ExchU n (twoBodyArr x C D l n n) := by
  intro p hp q hq r hr s hs
  rw [twoBodyArr_get hp hq hr hs, twoBodyArr_get hq hp hs hr, sum_comm]
  refine sum_congr rfl fun a ha => sum_congr rfl fun b hb => ?_
  rw [sum_comm]
  refine sum_congr rfl fun c hc => sum_congr rfl fun d hd => ?_
  rw [h b (mem_range.1 hb) a (mem_range.1 ha) d (mem_range.1 hd) c (mem_range.1 hc)]
  ring

theorem twoBodyArr_antiKet {x C D : NDArray K} {l n : ℕ} (h : AntiKet l x) :
    AntiKet n (twoBodyArr x C D l n n) := by
  intro p hp q hq r hr s hs
  rw [twoBodyArr_get hp hq hr hs, twoBodyArr_get hp hq hs hr]
  simp only [← sum_neg_distrib]
  refine sum_congr rfl fun a ha => sum_congr rfl fun b hb => ?_
  rw [sum_comm]
  refine sum_congr rfl fun c hc => sum_congr rfl fun d hd => ?_
  rw [h a (mem_range.1 ha) b (mem_range.1 hb) d (mem_range.1 hd) c (mem_range.1 hc)]
  ring

theorem twoBodyArr_antiBra {x C D : NDArray K} {l n : ℕ} (h : AntiBra l x) :
    AntiBra n (twoBodyArr x C D l n n) := by
  intro p hp q hq r hr s hs
  rw [twoBodyArr_get hp hq hr hs, twoBodyArr_get hq hp hr hs, sum_comm]
  simp only [← sum_neg_distrib]
  refine sum_congr rfl fun a ha => sum_congr rfl fun b hb => ?_
  refine sum_congr rfl fun c hc => sum_congr rfl fun d hd => ?_
  rw [h b (mem_range.1 hb) a (mem_range.1 ha) c (mem_range.1 hc) d (mem_range.1 hd)]
  ring

end BasisSet

end QS
