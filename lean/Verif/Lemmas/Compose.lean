import Verif.Lemmas.ChangeBasis
import Verif.Spec.BasisChange
import Mathlib.Algebra.BigOperators.Ring.Finset
import Mathlib.Tactic.LinearCombination

/-! # Composition of basis changes (helper file, no property theorems) -/

namespace QS

open Finset

section mm
variable {K : Type} [CommRing K] {ι κ τ σ : Type}

/-- Matrix product over a finite index set. -/
def mm (s : Finset κ) (f : ι → κ → K) (g : κ → τ → K) (i : ι) (t : τ) : K := ∑ k ∈ s, f i k * g k t

theorem mm_assoc (s : Finset κ) (t : Finset τ) (f : ι → κ → K) (g : κ → τ → K) (h : τ → σ → K) :
    mm t (mm s f g) h = mm s f (mm t g h) := by
  funext i j
  simp only [mm, sum_mul, mul_sum]
  rw [sum_comm]
  exact sum_congr rfl fun _ _ => sum_congr rfl fun _ _ => by ring

theorem sandwich_eq (s : Finset κ) (t : Finset τ) (f : ι → κ → K) (g : κ → τ → K) (h : τ → σ → K)
    (i : ι) (j : σ) : ∑ a ∈ s, ∑ b ∈ t, f i a * g a b * h b j = mm t (mm s f g) h i j := by
  simp only [mm, sum_mul]
  exact sum_comm

/-- Sandwiching twice is sandwiching with the products. -/
theorem sandwich_sandwich {α β : Type} (s : Finset κ) (t : Finset τ) (s' : Finset α) (t' : Finset β)
    (d₂ : ι → κ → K) (d₁ : κ → α → K) (x : α → β → K) (c₁ : β → τ → K) (c₂ : τ → σ → K)
    (i : ι) (j : σ) :
    (∑ a ∈ s, ∑ b ∈ t, d₂ i a * (∑ c ∈ s', ∑ d ∈ t', d₁ a c * x c d * c₁ d b) * c₂ b j) =
    ∑ c ∈ s', ∑ d ∈ t', mm s d₂ d₁ i c * x c d * mm t c₁ c₂ d j := by
  simp only [sandwich_eq]
  rw [← mm_assoc, ← mm_assoc, ← mm_assoc, mm_assoc t' t]

/-- Product of two Kronecker squares. -/
theorem mm_prod (s : Finset κ) (f : ι → κ → K) (g : κ → τ → K) (p q : ι) (r t : τ) :
    mm (s ×ˢ s) (fun (a : ι × ι) (k : κ × κ) => f a.1 k.1 * f a.2 k.2)
      (fun k (b : τ × τ) => g k.1 b.1 * g k.2 b.2) (p, q) (r, t) =
    mm s f g p r * mm s f g q t := by
  simp only [mm, sum_product, sum_mul_sum]
  exact sum_congr rfl fun _ _ => sum_congr rfl fun _ _ => by ring

theorem four_eq (s t : Finset κ) (f : ι → κ → K) (u : κ → κ → κ → κ → K) (h : κ → σ → K)
    (p q : ι) (r v : σ) :
    ∑ a ∈ s, ∑ b ∈ s, ∑ c ∈ t, ∑ d ∈ t, f p a * f q b * u a b c d * h c r * h d v =
    ∑ A ∈ s ×ˢ s, ∑ B ∈ t ×ˢ t, (f p A.1 * f q A.2) * u A.1 A.2 B.1 B.2 * (h B.1 r * h B.2 v) := by
  simp only [sum_product]
  exact sum_congr rfl fun _ _ => sum_congr rfl fun _ _ => sum_congr rfl fun _ _ =>
    sum_congr rfl fun _ _ => by ring

end mm

namespace BasisSet
variable {K : Type} [PyScalar K]

open NDArray PyM

theorem matMul_get_mm {a b : NDArray K} {m k n p q : ℕ} (hp : p < m) (hq : q < n) :
    (matMul a b m k n).get [p, q] =
      mm (range k) (fun p t => a.get [p, t]) (fun t q => b.get [t, q]) p q :=
  matMul_get hp hq

theorem oneBodyArr_comp (x C₁ D₁ C₂ D₂ : NDArray K) (l n₁ n₂ : ℕ) :
    oneBodyArr (oneBodyArr x C₁ D₁ n₁ l l n₁) C₂ D₂ n₂ n₁ n₁ n₂ =
      oneBodyArr x (matMul C₁ C₂ l n₁ n₂) (matMul D₂ D₁ n₂ n₁ l) n₂ l l n₂ := by
  refine ext' ?_ rfl fun i hi => ?_
  · simp only [oneBodyArr, ofFn_dtype, matMul_dtype]
    cases x.dtype <;> cases C₁.dtype <;> cases D₁.dtype <;> cases C₂.dtype <;> cases D₂.dtype <;> rfl
  obtain ⟨p, q, rfl, hp, hq⟩ := inRange_two.1 (show InRange [n₂, n₂] i from hi)
  rw [oneBodyArr_get hp hq, oneBodyArr_get hp hq]
  have h1 : ∀ a ∈ range n₁, ∀ b ∈ range n₁, (oneBodyArr x C₁ D₁ n₁ l l n₁).get [a, b] =
      ∑ c ∈ range l, ∑ d ∈ range l, D₁.get [a, c] * x.get [c, d] * C₁.get [d, b] :=
    fun a ha b hb => oneBodyArr_get (mem_range.1 ha) (mem_range.1 hb)
  rw [sum_congr rfl fun a ha => sum_congr rfl fun b hb => by rw [h1 a ha b hb]]
  rw [sandwich_sandwich (range n₁) (range n₁) (range l) (range l) (fun p a => D₂.get [p, a])
    (fun a c => D₁.get [a, c]) (fun c d => x.get [c, d]) (fun d b => C₁.get [d, b])
    (fun b q => C₂.get [b, q])]
  refine sum_congr rfl fun c hc => sum_congr rfl fun d hd => ?_
  rw [matMul_get_mm hp (mem_range.1 hc), matMul_get_mm (mem_range.1 hd) hq]

theorem dipoleArr_comp (x C₁ D₁ C₂ D₂ : NDArray K) (dim l n₁ n₂ : ℕ) :
    dipoleArr (dipoleArr x C₁ D₁ dim l n₁) C₂ D₂ dim n₁ n₂ =
      dipoleArr x (matMul C₁ C₂ l n₁ n₂) (matMul D₂ D₁ n₂ n₁ l) dim l n₂ := by
  refine ext' ?_ rfl fun i hi => ?_
  · simp only [dipoleArr, ofFn_dtype, matMul_dtype]
    cases x.dtype <;> cases C₁.dtype <;> cases D₁.dtype <;> cases C₂.dtype <;> cases D₂.dtype <;> rfl
  obtain ⟨i, p, q, rfl, hi, hp, hq⟩ := inRange_three.1 (show InRange [dim, n₂, n₂] i from hi)
  rw [dipoleArr_get hi hp hq, dipoleArr_get hi hp hq]
  have h1 : ∀ a ∈ range n₁, ∀ b ∈ range n₁, (dipoleArr x C₁ D₁ dim l n₁).get [i, a, b] =
      ∑ c ∈ range l, ∑ d ∈ range l, D₁.get [a, c] * x.get [i, c, d] * C₁.get [d, b] :=
    fun a ha b hb => dipoleArr_get hi (mem_range.1 ha) (mem_range.1 hb)
  rw [sum_congr rfl fun a ha => sum_congr rfl fun b hb => by rw [h1 a ha b hb]]
  rw [sandwich_sandwich (range n₁) (range n₁) (range l) (range l) (fun p a => D₂.get [p, a])
    (fun a c => D₁.get [a, c]) (fun c d => x.get [i, c, d]) (fun d b => C₁.get [d, b])
    (fun b q => C₂.get [b, q])]
  refine sum_congr rfl fun c hc => sum_congr rfl fun d hd => ?_
  rw [matMul_get_mm hp (mem_range.1 hc), matMul_get_mm (mem_range.1 hd) hq]

theorem twoBodyArr_comp (x C₁ D₁ C₂ D₂ : NDArray K) (l n₁ n₂ : ℕ) :
    twoBodyArr (twoBodyArr x C₁ D₁ l n₁ n₁) C₂ D₂ n₁ n₂ n₂ =
      twoBodyArr x (matMul C₁ C₂ l n₁ n₂) (matMul D₂ D₁ n₂ n₁ l) l n₂ n₂ := by
  refine ext' ?_ rfl fun i hi => ?_
  · simp only [twoBodyArr, ofFn_dtype, matMul_dtype]
    cases x.dtype <;> cases C₁.dtype <;> cases D₁.dtype <;> cases C₂.dtype <;> cases D₂.dtype <;> rfl
  obtain ⟨p, q, r, v, rfl, hp, hq, hr, hv⟩ :=
    inRange_four.1 (show InRange [n₂, n₂, n₂, n₂] i from hi)
  rw [twoBodyArr_get hp hq hr hv, twoBodyArr_get hp hq hr hv]
  have h1 : ∀ a ∈ range n₁, ∀ b ∈ range n₁, ∀ c ∈ range n₁, ∀ d ∈ range n₁,
      (twoBodyArr x C₁ D₁ l n₁ n₁).get [a, b, c, d] =
      ∑ A ∈ range l ×ˢ range l, ∑ B ∈ range l ×ˢ range l,
        (D₁.get [a, A.1] * D₁.get [b, A.2]) * x.get [A.1, A.2, B.1, B.2] *
          (C₁.get [B.1, c] * C₁.get [B.2, d]) := by
    intro a ha b hb c hc d hd
    rw [twoBodyArr_get (mem_range.1 ha) (mem_range.1 hb) (mem_range.1 hc) (mem_range.1 hd)]
    exact four_eq (range l) (range l) (fun a A => D₁.get [a, A])
      (fun a b c d => x.get [a, b, c, d]) (fun B c => C₁.get [B, c]) a b c d
  rw [sum_congr rfl fun a ha => sum_congr rfl fun b hb => sum_congr rfl fun c hc =>
    sum_congr rfl fun d hd => by rw [h1 a ha b hb c hc d hd]]
  rw [four_eq (range n₁) (range n₁) (fun p a => D₂.get [p, a])
    (fun a b c d => ∑ A ∈ range l ×ˢ range l, ∑ B ∈ range l ×ˢ range l,
        (D₁.get [a, A.1] * D₁.get [b, A.2]) * x.get [A.1, A.2, B.1, B.2] *
          (C₁.get [B.1, c] * C₁.get [B.2, d])) (fun c r => C₂.get [c, r]) p q r v]
  rw [sandwich_sandwich (range n₁ ×ˢ range n₁) (range n₁ ×ˢ range n₁) (range l ×ˢ range l)
    (range l ×ˢ range l) (fun (P : ℕ × ℕ) (A : ℕ × ℕ) => D₂.get [P.1, A.1] * D₂.get [P.2, A.2])
    (fun (P : ℕ × ℕ) (A : ℕ × ℕ) => D₁.get [P.1, A.1] * D₁.get [P.2, A.2])
    (fun A B => x.get [A.1, A.2, B.1, B.2])
    (fun (P : ℕ × ℕ) (A : ℕ × ℕ) => C₁.get [P.1, A.1] * C₁.get [P.2, A.2])
    (fun (P : ℕ × ℕ) (A : ℕ × ℕ) => C₂.get [P.1, A.1] * C₂.get [P.2, A.2]) (p, q) (r, v)]
  rw [four_eq (range l) (range l) (fun p a => (matMul D₂ D₁ n₂ n₁ l).get [p, a])
    (fun a b c d => x.get [a, b, c, d]) (fun c r => (matMul C₁ C₂ l n₁ n₂).get [c, r]) p q r v]
  refine sum_congr rfl fun A hA => sum_congr rfl fun B hB => ?_
  obtain ⟨hA1, hA2⟩ := mem_product.1 hA
  obtain ⟨hB1, hB2⟩ := mem_product.1 hB
  rw [matMul_get_mm hp (mem_range.1 hA1), matMul_get_mm hq (mem_range.1 hA2),
    matMul_get_mm (mem_range.1 hB1) hr, matMul_get_mm (mem_range.1 hB2) hv]
  rw [← mm_prod (range n₁) (fun p a => D₂.get [p, a]) (fun p a => D₁.get [p, a]) p q A.1 A.2,
    ← mm_prod (range n₁) (fun p a => C₁.get [p, a]) (fun p a => C₂.get [p, a]) B.1 B.2 r v]

theorem spfArr_comp (x C₁ C₂ : NDArray K) (l n₁ n₂ : ℕ) :
    spfArr (spfArr x C₁ l n₁) C₂ n₁ n₂ = spfArr x (matMul C₁ C₂ l n₁ n₂) l n₂ := by
  refine ext' ?_ rfl fun i hi => ?_
  · simp only [spfArr, ofFn_dtype, matMul_dtype]
    cases x.dtype <;> cases C₁.dtype <;> cases C₂.dtype <;> rfl
  obtain ⟨p, g, rfl, hp, hg⟩ := inRange_cons_iff.1 (show InRange (n₂ :: x.shape.tail) i from hi)
  rw [spfArr_get hp (by simpa using hg), spfArr_get hp hg]
  rw [sum_congr rfl fun a ha => by rw [spfArr_get (mem_range.1 ha) hg, mul_sum]]
  rw [sum_comm]
  refine sum_congr rfl fun c hc => ?_
  rw [matMul_get (mem_range.1 hc) hp, sum_mul]
  exact sum_congr rfl fun _ _ => by ring

theorem braArr_comp (x D₁ D₂ : NDArray K) (l n₁ n₂ : ℕ) :
    braArr (braArr x D₁ l n₁) D₂ n₁ n₂ = braArr x (matMul D₂ D₁ n₂ n₁ l) l n₂ := by
  refine ext' ?_ rfl fun i hi => ?_
  · simp only [braArr, ofFn_dtype, matMul_dtype]
    cases x.dtype <;> cases D₁.dtype <;> cases D₂.dtype <;> rfl
  obtain ⟨p, g, rfl, hp, hg⟩ := inRange_cons_iff.1 (show InRange (n₂ :: x.shape.tail) i from hi)
  rw [braArr_get hp (by simpa using hg), braArr_get hp hg]
  rw [sum_congr rfl fun a ha => by rw [braArr_get (mem_range.1 ha) hg, mul_sum]]
  rw [sum_comm]
  refine sum_congr rfl fun c hc => ?_
  rw [matMul_get hp (mem_range.1 hc), sum_mul]
  exact sum_congr rfl fun _ _ => by ring

theorem changed_changed (b : BasisSet K) (C₁ D₁ C₂ D₂ : NDArray K) (l n₁ n₂ : ℕ) :
    changed (changed b C₁ D₁ l n₁) C₂ D₂ n₁ n₂ =
      changed b (matMul C₁ C₂ l n₁ n₂) (matMul D₂ D₁ n₂ n₁ l) l n₂ := by
  unfold changed
  congr 1
  · simp only [Option.map_map]; congr 1; funext x; exact oneBodyArr_comp ..
  · simp only [Option.map_map]; congr 1; funext x; exact twoBodyArr_comp ..
  · simp only [Option.map_map]; congr 1; funext x; exact oneBodyArr_comp ..
  · simp only [Option.map_map]; congr 1; funext x; exact dipoleArr_comp ..
  · simp only [Option.map_map]; congr 1; funext x; exact twoBodyArr_comp ..
  · simp only [Option.map_map]; congr 1; funext x; exact spfArr_comp ..
  · rcases hs : b.spf with _ | x
    · simp
    · rcases hbb : b.braSpf with _ | y <;> simp [bra, hbb, hs, braArr_comp]

/-! ### the identity -/

/-- `C` is the `l × l` identity, entry by entry. -/
def IsId (C : NDArray K) (l : ℕ) : Prop :=
  C.shape = [l, l] ∧ ∀ p < l, ∀ q < l, C.get [p, q] = if p = q then 1 else 0

theorem sameValues_of {x y : NDArray K} (hs : y.shape = x.shape)
    (h : ∀ i, InRange x.shape i → y.get i = x.get i) : SameValues x y := by
  refine ⟨hs, fun i => ?_⟩
  by_cases hi : InRange x.shape i
  · exact h i hi
  · rw [x.supp i hi, y.supp i (by rw [hs]; exact hi)]

theorem oneBodyArr_id {x C D : NDArray K} {l : ℕ} (hx : x.shape = [l, l]) (hC : IsId C l)
    (hD : IsId D l) : SameValues x (oneBodyArr x C D l l l l) := by
  refine sameValues_of hx.symm fun i hi => ?_
  rw [hx] at hi
  obtain ⟨p, q, rfl, hp, hq⟩ := inRange_two.1 hi
  rw [oneBodyArr_get hp hq, sum_eq_single p]
  · rw [sum_eq_single q]
    · rw [hD.2 p hp p hp, hC.2 q hq q hq]; simp
    · intro b hb hne; rw [hC.2 b (mem_range.1 hb) q hq]; simp [hne]
    · intro h; exact absurd (mem_range.2 hq) h
  · intro a ha hne
    refine sum_eq_zero fun b _ => ?_
    rw [hD.2 p hp a (mem_range.1 ha)]; simp [hne.symm]
  · intro h; exact absurd (mem_range.2 hp) h

theorem dipoleArr_id {x C D : NDArray K} {dim l : ℕ} (hx : x.shape = [dim, l, l]) (hC : IsId C l)
    (hD : IsId D l) : SameValues x (dipoleArr x C D dim l l) := by
  refine sameValues_of hx.symm fun i hi => ?_
  rw [hx] at hi
  obtain ⟨i, p, q, rfl, hi, hp, hq⟩ := inRange_three.1 hi
  rw [dipoleArr_get hi hp hq, sum_eq_single p]
  · rw [sum_eq_single q]
    · rw [hD.2 p hp p hp, hC.2 q hq q hq]; simp
    · intro b hb hne; rw [hC.2 b (mem_range.1 hb) q hq]; simp [hne]
    · intro h; exact absurd (mem_range.2 hq) h
  · intro a ha hne
    refine sum_eq_zero fun b _ => ?_
    rw [hD.2 p hp a (mem_range.1 ha)]; simp [hne.symm]
  · intro h; exact absurd (mem_range.2 hp) h

theorem twoBodyArr_id {x C D : NDArray K} {l : ℕ} (hx : x.shape = [l, l, l, l]) (hC : IsId C l)
    (hD : IsId D l) : SameValues x (twoBodyArr x C D l l l) := by
  refine sameValues_of hx.symm fun i hi => ?_
  rw [hx] at hi
  obtain ⟨p, q, r, s, rfl, hp, hq, hr, hs⟩ := inRange_four.1 hi
  rw [twoBodyArr_get hp hq hr hs, sum_eq_single p, sum_eq_single q, sum_eq_single r,
    sum_eq_single s]
  · rw [hD.2 p hp p hp, hD.2 q hq q hq, hC.2 r hr r hr, hC.2 s hs s hs]; simp
  · intro b hb hne; rw [hC.2 b (mem_range.1 hb) s hs]; simp [hne]
  · intro h; exact absurd (mem_range.2 hs) h
  · intro b hb hne
    refine sum_eq_zero fun d _ => ?_
    rw [hC.2 b (mem_range.1 hb) r hr]; simp [hne]
  · intro h; exact absurd (mem_range.2 hr) h
  · intro b hb hne
    refine sum_eq_zero fun c _ => sum_eq_zero fun d _ => ?_
    rw [hD.2 q hq b (mem_range.1 hb)]; simp [hne.symm]
  · intro h; exact absurd (mem_range.2 hq) h
  · intro b hb hne
    refine sum_eq_zero fun c _ => sum_eq_zero fun d _ => sum_eq_zero fun e _ => ?_
    rw [hD.2 p hp b (mem_range.1 hb)]; simp [hne.symm]
  · intro h; exact absurd (mem_range.2 hp) h

theorem spfArr_id {x C : NDArray K} {l : ℕ} {g : List ℕ} (hx : x.shape = l :: g) (hC : IsId C l) :
    SameValues x (spfArr x C l l) := by
  refine sameValues_of (by simp [hx]) fun i hi => ?_
  rw [hx] at hi
  obtain ⟨p, j, rfl, hp, hj⟩ := inRange_cons_iff.1 hi
  rw [spfArr_get hp (by simpa [hx] using hj), sum_eq_single p]
  · rw [hC.2 p hp p hp]; simp
  · intro a ha hne; rw [hC.2 a (mem_range.1 ha) p hp]; simp [hne]
  · intro h; exact absurd (mem_range.2 hp) h

theorem braArr_id {x C : NDArray K} {l : ℕ} {g : List ℕ} (hx : x.shape = l :: g) (hC : IsId C l) :
    SameValues x (braArr x C l l) := by
  refine sameValues_of (by simp [hx]) fun i hi => ?_
  rw [hx] at hi
  obtain ⟨p, j, rfl, hp, hj⟩ := inRange_cons_iff.1 hi
  rw [braArr_get hp (by simpa [hx] using hj), sum_eq_single p]
  · rw [hC.2 p hp p hp]; simp
  · intro a ha hne; rw [hC.2 p hp a (mem_range.1 ha)]; simp [hne.symm]
  · intro h; exact absurd (mem_range.2 hp) h

theorem optRel_map {α : Type} {R : α → α → Prop} {o : Option α} {f : α → α}
    (h : ∀ x, o = some x → R x (f x)) : OptRel R o (o.map f) := by
  cases o with
  | none => trivial
  | some x => exact h x rfl

theorem changed_bra {b : BasisSet K} {C D : NDArray K} {l n : ℕ} (hb : WellFormed b l) :
    (changed b C D l n).bra = b.bra.map fun x => braArr x D l n := by
  rcases hs : b.spf with _ | x
  · have := hb.braNeedsSpf hs
    simp [changed, bra, hs, this]
  · obtain ⟨y, hy⟩ := bra_of_spf hs
    simp [changed, bra, hs] at hy ⊢
    rcases hbb : b.braSpf with _ | z <;> simp

theorem changed_id {b : BasisSet K} {C D : NDArray K} {l : ℕ} (hb : WellFormed b l)
    (hC : IsId C l) (hD : IsId D l) : SameElements b (changed b C D l l) where
  size := hb.l_eq.symm
  h := optRel_map fun x hx => by
    obtain ⟨y, hy, hs⟩ := hb.h
    rw [hx] at hy; cases hy
    exact oneBodyArr_id hs hC hD
  s := optRel_map fun x hx => oneBodyArr_id (hb.s x hx) hC hD
  u := optRel_map fun x hx => by
    obtain ⟨y, hy, hs⟩ := hb.u
    rw [hx] at hy; cases hy
    exact twoBodyArr_id hs hC hD
  dipole := optRel_map fun x hx => dipoleArr_id (hb.dipole x hx).2 hC hD
  spf := optRel_map fun x hx => by
    obtain ⟨g, hg, _⟩ := hb.spf x hx
    exact spfArr_id hg hC
  bra := by
    rw [changed_bra hb]
    refine optRel_map fun x hx => ?_
    obtain ⟨g, hg, _⟩ := WellFormed.bra_shape hb hx
    exact braArr_id hg hD

theorem changed_isChanged {b : BasisSet K} {C D : NDArray K} {l n : ℕ} (hb : WellFormed b l) :
    BasisChanged b (changed b C D l n) C D l n where
  size := rfl
  h := optRel_map fun x _ => ⟨rfl, fun p hp q hq => oneBodyArr_get hp hq⟩
  s := optRel_map fun x _ => ⟨rfl, fun p hp q hq => oneBodyArr_get hp hq⟩
  u := optRel_map fun x _ => ⟨rfl, fun p hp q hq r hr s hs => twoBodyArr_get hp hq hr hs⟩
  dipole := optRel_map fun x _ => ⟨rfl, fun i hi p hp q hq => dipoleArr_get hi hp hq⟩
  spf := optRel_map fun x _ => ⟨rfl, fun p hp g hg => spfArr_get hp hg⟩
  bra := by
    rw [changed_bra hb]
    exact optRel_map fun x _ => ⟨rfl, fun p hp g hg => braArr_get hp hg⟩
  rest := ⟨rfl, rfl, rfl, rfl, rfl, rfl⟩

end BasisSet

end QS
