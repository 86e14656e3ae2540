import Verif.Spec.Positive
import Verif.Spec.System
import Verif.Lemmas.ChangeBasis
import Verif.Lemmas.Symmetry
import Verif.Lemmas.General
import Verif.Lemmas.Pauli
import Mathlib.Algebra.QuadraticDiscriminant
import Mathlib.Data.Complex.BigOperators

/-! # Positive operators (helper file, no property theorems) -/

namespace QS

open Finset BasisSet

/-- Change of variables in a sesquilinear form. -/
theorem form_subst {α β : Type} (s : Finset α) (t : Finset β) (W : α → β → ℂ) (M : α → α → ℂ) (v : β → ℂ) :
    ∑ P ∈ t, ∑ R ∈ t, star (v P) * (∑ A ∈ s, ∑ B ∈ s, star (W A P) * M A B * W B R) * v R
      = ∑ A ∈ s, ∑ B ∈ s, star (∑ P ∈ t, W A P * v P) * M A B * ∑ R ∈ t, W B R * v R := by
  have h1 : ∀ P R, star (v P) * (∑ A ∈ s, ∑ B ∈ s, star (W A P) * M A B * W B R) * v R
      = ∑ A ∈ s, ∑ B ∈ s, star (W A P * v P) * M A B * (W B R * v R) := by
    intro P R
    rw [mul_sum, sum_mul]
    refine sum_congr rfl fun A _ => ?_
    rw [mul_sum, sum_mul]
    refine sum_congr rfl fun B _ => ?_
    rw [star_mul']
    ring
  rw [sum_congr rfl fun P _ => sum_congr rfl fun R _ => h1 P R]
  simp only [star_sum, sum_mul, mul_sum]
  rw [sum_congr rfl fun P _ => sum_comm, sum_comm]
  refine sum_congr rfl fun A _ => ?_
  rw [sum_congr rfl fun P _ => sum_comm, sum_comm]
  exact sum_congr rfl fun B _ => sum_comm

theorem oneForm_changed {C Ct x y : NDArray ℂ} {l n : ℕ}
    (hC : ∀ p < n, ∀ a < l, Ct.get [p, a] = star (C.get [a, p])) (h : IsOneBody C Ct l n x y) (v : ℕ → ℂ) :
    oneForm n y v = oneForm l x fun a => ∑ p ∈ range n, C.get [a, p] * v p := by
  unfold oneForm
  rw [← form_subst (range l) (range n) (fun a p => C.get [a, p]) (fun a b => x.get [a, b]) v]
  refine sum_congr rfl fun p hp => sum_congr rfl fun q hq => ?_
  rw [h.2 p (mem_range.1 hp) q (mem_range.1 hq)]
  congr 2
  refine sum_congr rfl fun a ha => sum_congr rfl fun b _ => ?_
  rw [hC p (mem_range.1 hp) a (mem_range.1 ha)]

theorem pairForm_changed {C Ct x y : NDArray ℂ} {l n : ℕ}
    (hC : ∀ p < n, ∀ a < l, Ct.get [p, a] = star (C.get [a, p])) (h : IsTwoBody C Ct l n x y) (v : ℕ × ℕ → ℂ) :
    pairForm n y v = pairForm l x fun a => ∑ p ∈ range n ×ˢ range n, C.get [a.1, p.1] * C.get [a.2, p.2] * v p := by
  unfold pairForm
  rw [← form_subst (range l ×ˢ range l) (range n ×ˢ range n)
    (fun a p => C.get [a.1, p.1] * C.get [a.2, p.2]) (fun a b => x.get [a.1, a.2, b.1, b.2]) v]
  refine sum_congr rfl fun p hp => sum_congr rfl fun r hr => ?_
  obtain ⟨hp1, hp2⟩ := mem_product.1 hp
  obtain ⟨hr1, hr2⟩ := mem_product.1 hr
  rw [h.2 _ (mem_range.1 hp1) _ (mem_range.1 hp2) _ (mem_range.1 hr1) _ (mem_range.1 hr2), sum_product]
  congr 2
  refine sum_congr rfl fun a ha => sum_congr rfl fun b hb => ?_
  rw [sum_product]
  refine sum_congr rfl fun c _ => sum_congr rfl fun d _ => ?_
  rw [hC _ (mem_range.1 hp1) a (mem_range.1 ha), hC _ (mem_range.1 hp2) b (mem_range.1 hb), star_mul']
  ring

/-- A form at a unit vector. -/
theorem form_single {α : Type} [DecidableEq α] {t : Finset α} (M : α → α → ℂ) {i : α} (hi : i ∈ t) :
    ∑ P ∈ t, ∑ R ∈ t, star (if P = i then (1 : ℂ) else 0) * M P R * (if R = i then 1 else 0) = M i i := by
  rw [sum_eq_single_of_mem i hi fun P _ hP => by simp [hP],
    sum_eq_single_of_mem i hi fun R _ hR => by simp [hR]]
  simp

/-- A form at a combination of two unit vectors. -/
theorem form_pair {α : Type} [DecidableEq α] {t : Finset α} (M : α → α → ℂ) {i j : α} (hi : i ∈ t) (hj : j ∈ t)
    (hij : i ≠ j) (x y : ℂ) :
    ∑ P ∈ t, ∑ R ∈ t, star (if P = i then x else if P = j then y else 0) * M P R
        * (if R = i then x else if R = j then y else 0)
      = star x * M i i * x + star x * M i j * y + star y * M j i * x + star y * M j j * y := by
  have h (f : α → ℂ) (hf : ∀ P, P ≠ i → P ≠ j → f P = 0) : ∑ P ∈ t, f P = f i + f j := by
    rw [← sum_pair hij]
    refine (sum_subset (by intro a; simp only [mem_insert, mem_singleton]; rintro (rfl | rfl) <;> assumption)
      fun P _ hP => ?_).symm
    simp only [mem_insert, mem_singleton, not_or] at hP
    exact hf P hP.1 hP.2
  rw [h _ fun P h1 h2 => by simp [h1, h2], h _ fun P h1 h2 => by simp [h1, h2],
    h _ fun P h1 h2 => by simp [h1, h2]]
  simp only [if_true, if_neg hij.symm]
  ring

theorem PosU.direct {l : ℕ} {u : NDArray ℂ} (h : PosU l u) {p q : ℕ} (hp : p < l) (hq : q < l) :
    (u.get [p, q, p, q]).im = 0 ∧ 0 ≤ (u.get [p, q, p, q]).re := by
  have := h fun P => if P = (p, q) then 1 else 0
  unfold pairForm at this
  rwa [form_single (fun P R => u.get [P.1, P.2, R.1, R.2])
    (mem_product.2 ⟨mem_range.2 hp, mem_range.2 hq⟩)] at this

/-- The Cauchy-Schwarz inequality of a positive operator. -/
theorem PosU.schwarz {l : ℕ} {u : NDArray ℂ} (h : PosU l u) {p q r s : ℕ} (hp : p < l) (hq : q < l) (hr : r < l)
    (hs : s < l) :
    u.get [r, s, p, q] = star (u.get [p, q, r, s]) ∧
      ‖u.get [p, q, r, s]‖ ^ 2 ≤ (u.get [p, q, p, q]).re * (u.get [r, s, r, s]).re := by
  have d1 := h.direct hp hq
  have d2 := h.direct hr hs
  by_cases hij : (p, q) = (r, s)
  · obtain ⟨rfl, rfl⟩ := Prod.mk.inj hij
    have e : u.get [p, q, p, q] = ((u.get [p, q, p, q]).re : ℂ) := Complex.ext (by simp) (by simp [d1.1])
    refine ⟨by rw [e]; simp, ?_⟩
    rw [e, Complex.norm_real, Complex.ofReal_re, Real.norm_eq_abs, sq_abs, sq]
  have f (x y : ℂ) := h fun P => if P = (p, q) then x else if P = (r, s) then y else 0
  unfold pairForm at f
  simp only [form_pair (fun P R => u.get [P.1, P.2, R.1, R.2])
    (mem_product.2 ⟨mem_range.2 hp, mem_range.2 hq⟩) (mem_product.2 ⟨mem_range.2 hr, mem_range.2 hs⟩) hij] at f
  obtain ⟨a1, a2⟩ := d1
  obtain ⟨b1, b2⟩ := d2
  generalize u.get [p, q, p, q] = A at *
  generalize u.get [r, s, r, s] = B at *
  generalize u.get [p, q, r, s] = c at *
  generalize u.get [r, s, p, q] = d at *
  have hd : d = star c := by
    have f1 := (f 1 1).1
    have f2 := (f 1 Complex.I).1
    simp [a1, b1] at f1 f2
    apply Complex.ext
    · simp; linarith
    · simp; linarith
  refine ⟨hd, ?_⟩
  subst hd
  -- at `x = t`, `y = - t' conj c`
  rcases eq_or_ne c 0 with rfl | hc
  · simpa using mul_nonneg a2 b2
  have key : ∀ t : ℝ, 0 ≤ A.re * (t * t) + (-2 * ‖c‖ ^ 2) * t + B.re * ‖c‖ ^ 2 := by
    intro t
    have := (f (t : ℂ) (-star c)).2
    have e : star (t : ℂ) * A * t + star (t : ℂ) * c * (-star c) + star (-star c) * star c * t
        + star (-star c) * B * (-star c) = A * (t * t : ℝ) + ((-2 * ‖c‖ ^ 2 * t : ℝ) : ℂ) + B * (‖c‖ ^ 2 : ℝ) := by
      have h1 : c * star c = ((‖c‖ ^ 2 : ℝ) : ℂ) := by
        rw [show star c = (starRingEnd ℂ) c from rfl, Complex.mul_conj, Complex.normSq_eq_norm_sq]
      rw [star_neg, star_star, show star (t : ℂ) = t from Complex.conj_ofReal t]
      push_cast
      push_cast at h1
      rw [← h1]
      ring
    rw [e] at this
    simpa only [Complex.add_re, Complex.re_mul_ofReal, Complex.ofReal_re] using this
  have hd := discrim_le_zero key
  unfold discrim at hd
  have hc2 : 0 < ‖c‖ ^ 2 := by positivity
  nlinarith [hd, hc2, mul_pos hc2 hc2]

theorem PosU.herm {l : ℕ} {u : NDArray ℂ} (h : PosU l u) : HermU l u := by
  intro p hp q hq r hr s hs
  exact (h.schwarz hr hs hp hq).1

theorem PosU.exchange {l : ℕ} {u : NDArray ℂ} (h : PosU l u) (he : ExchU l u) {p q : ℕ} (hp : p < l) (hq : q < l) :
    (u.get [p, q, q, p]).im = 0 ∧ ‖u.get [p, q, q, p]‖ ≤ (u.get [p, q, p, q]).re := by
  obtain ⟨h1, h2⟩ := h.schwarz hp hq hq hp
  have h3 := he q hq p hp p hp q hq
  rw [h1] at h3
  refine ⟨?_, ?_⟩
  · have := congrArg Complex.im h3
    simp at this
    linarith
  · rw [he q hq p hp q hq p hp, ← sq] at h2
    exact le_of_sq_le_sq h2 (h.direct hp hq).2

/-- Anti-symmetrisation keeps a positive operator positive. -/
theorem PosU.anti {l : ℕ} {x y : NDArray ℂ} (h : PosU l x) (he : ExchU l x) (ha : IsAntiSymmetrised l x y) :
    PosU l y := by
  intro v
  have e : pairForm l y v = (1 / 2 : ℝ) * pairForm l x fun p => v p - v p.swap := by
    have sw (f : ℕ × ℕ → ℂ) : ∑ p ∈ range l ×ˢ range l, f p.swap = ∑ p ∈ range l ×ˢ range l, f p := by
      rw [sum_product, sum_product, sum_comm]
      rfl
    set T := fun (f g : ℕ × ℕ → ℂ) => ∑ p ∈ range l ×ˢ range l, ∑ r ∈ range l ×ˢ range l,
      star (f p) * x.get [p.1, p.2, r.1, r.2] * g r with hT
    have t1 : pairForm l y v = T v v - T v fun r => v r.swap := by
      simp only [hT]
      unfold pairForm
      rw [← sum_sub_distrib]
      refine sum_congr rfl fun p hp => ?_
      rw [← sw fun r => star (v p) * x.get [p.1, p.2, r.1, r.2] * v r.swap, ← sum_sub_distrib]
      refine sum_congr rfl fun r hr => ?_
      obtain ⟨hp1, hp2⟩ := mem_product.1 hp
      obtain ⟨hr1, hr2⟩ := mem_product.1 hr
      rw [ha.2 _ (mem_range.1 hp1) _ (mem_range.1 hp2) _ (mem_range.1 hr1) _ (mem_range.1 hr2)]
      simp only [Prod.swap_swap, Prod.fst_swap, Prod.snd_swap]
      ring
    have t2 (f g : ℕ × ℕ → ℂ) : T (fun p => f p.swap) (fun r => g r.swap) = T f g := by
      simp only [hT]
      rw [← sw fun p => ∑ r ∈ range l ×ˢ range l, star (f p) * x.get [p.1, p.2, r.1, r.2] * g r]
      refine sum_congr rfl fun p hp => ?_
      rw [← sw fun r => star (f p.swap) * x.get [p.swap.1, p.swap.2, r.1, r.2] * g r]
      refine sum_congr rfl fun r hr => ?_
      obtain ⟨hp1, hp2⟩ := mem_product.1 hp
      obtain ⟨hr1, hr2⟩ := mem_product.1 hr
      rw [he _ (mem_range.1 hp1) _ (mem_range.1 hp2) _ (mem_range.1 hr1) _ (mem_range.1 hr2)]
      rfl
    have t3 : (pairForm l x fun p => v p - v p.swap) = T v v - (T v fun r => v r.swap)
        - (T (fun p => v p.swap) v) + T (fun p => v p.swap) fun r => v r.swap := by
      simp only [hT]
      unfold pairForm
      rw [← sum_sub_distrib, ← sum_sub_distrib, ← sum_add_distrib]
      refine sum_congr rfl fun p _ => ?_
      rw [← sum_sub_distrib, ← sum_sub_distrib, ← sum_add_distrib]
      refine sum_congr rfl fun r _ => ?_
      rw [star_sub]
      ring
    have t4 : (T (fun p => v p.swap) v) = T v fun r => v r.swap := by
      have := t2 (fun p => v p.swap) v
      simp only [Prod.swap_swap] at this
      exact this.symm
    rw [t1, t3, t2, t4]
    push_cast
    ring
  obtain ⟨h1, h2⟩ := h fun p => v p - v p.swap
  rw [e]
  refine ⟨by simp [h1], ?_⟩
  simp only [Complex.re_ofReal_mul]
  positivity

/-! ### spin doubling -/

theorem sum_pairs_two_mul (f : ℕ × ℕ → ℂ) (l : ℕ) :
    ∑ p ∈ range (2 * l) ×ˢ range (2 * l), f p
      = ∑ p ∈ range l ×ˢ range l, ∑ a ∈ range 2 ×ˢ range 2, f (2 * p.1 + a.1, 2 * p.2 + a.2) := by
  rw [sum_product, sum_range_two_mul, sum_product]
  refine sum_congr rfl fun p _ => ?_
  rw [sum_congr rfl fun a _ => sum_range_two_mul _ l, sum_comm]
  refine sum_congr rfl fun q _ => ?_
  rw [sum_product]

theorem PosU.doubled {l : ℕ} {x y : NDArray ℂ} (h : PosU l x) (hd : IsDoubledTwoBody l x y) : PosU (2 * l) y := by
  intro v
  have e : pairForm (2 * l) y v = ∑ a ∈ range 2 ×ˢ range 2,
      pairForm l x fun p => v (2 * p.1 + a.1, 2 * p.2 + a.2) := by
    unfold pairForm
    rw [sum_pairs_two_mul, sum_comm]
    refine sum_congr rfl fun a ha => sum_congr rfl fun p hp => ?_
    rw [sum_pairs_two_mul]
    refine sum_congr rfl fun r hr => ?_
    simp only [mem_product, mem_range] at ha hp hr
    rw [sum_eq_single_of_mem a (by simp only [mem_product, mem_range]; exact ha) fun c hc hne => ?_]
    · rw [hd.2 _ hp.1 _ hp.2 _ hr.1 _ hr.2 _ ha.1 _ ha.2 _ ha.1 _ ha.2, if_pos ⟨rfl, rfl⟩]
    · simp only [mem_product, mem_range] at hc
      rw [hd.2 _ hp.1 _ hp.2 _ hr.1 _ hr.2 _ ha.1 _ ha.2 _ hc.1 _ hc.2, if_neg fun hac => hne
        (Prod.ext hac.1.symm hac.2.symm), mul_zero, zero_mul]
  rw [e, Complex.im_sum, Complex.re_sum]
  exact ⟨sum_eq_zero fun a _ => (h _).1, sum_nonneg fun a _ => (h _).2⟩

theorem parity_cases (p : ℕ) {l : ℕ} (hp : p < 2 * l) : ∃ p' a, p' < l ∧ a < 2 ∧ p = 2 * p' + a :=
  ⟨p / 2, p % 2, by omega, by omega, by omega⟩

theorem exch_doubled {l : ℕ} {x y : NDArray ℂ} (h : ExchU l x) (hd : IsDoubledTwoBody l x y) : ExchU (2 * l) y := by
  intro p hp q hq r hr s hs
  obtain ⟨p, a, hp', ha, rfl⟩ := parity_cases p hp
  obtain ⟨q, b, hq', hb, rfl⟩ := parity_cases q hq
  obtain ⟨r, c, hr', hc, rfl⟩ := parity_cases r hr
  obtain ⟨s, d, hs', hd', rfl⟩ := parity_cases s hs
  rw [hd.2 p hp' q hq' r hr' s hs' a ha b hb c hc d hd', hd.2 q hq' p hp' s hs' r hr' b hb a ha d hd' c hc,
    h p hp' q hq' r hr' s hs']
  simp only [and_comm]

theorem exch_anti {l : ℕ} {x y : NDArray ℂ} (h : ExchU l x) (ha : IsAntiSymmetrised l x y) : ExchU l y := by
  intro p hp q hq r hr s hs
  rw [ha.2 p hp q hq r hr s hs, ha.2 q hq p hp s hs r hr, h p hp q hq r hr s hs, h p hp q hq s hs r hr]

/-- The anti-symmetrised doubled elements are the doubled elements, anti-symmetrised. -/
theorem doubledAnti {l : ℕ} {x y : NDArray ℂ} (hd : IsDoubledAntiTwoBody l x y) :
    ∃ z, IsDoubledTwoBody l x z ∧ IsAntiSymmetrised (2 * l) z y := by
  have hz : IsDoubledTwoBody l x (BasisSet.dbl2 x l) := by
    refine ⟨rfl, fun p hp q hq r hr s hs a ha b hb c hc d hd => ?_⟩
    rw [BasisSet.dbl2_get (by omega) (by omega) (by omega) (by omega)]
    simp only [Nat.mul_add_mod, Nat.mod_eq_of_lt ha, Nat.mod_eq_of_lt hb, Nat.mod_eq_of_lt hc, Nat.mod_eq_of_lt hd]
    rw [show (2 * p + a) / 2 = p by omega, show (2 * q + b) / 2 = q by omega, show (2 * r + c) / 2 = r by omega,
      show (2 * s + d) / 2 = s by omega]
  refine ⟨_, hz, hd.1, fun p hp q hq r hr s hs => ?_⟩
  obtain ⟨p, a, hp', ha, rfl⟩ := parity_cases p hp
  obtain ⟨q, b, hq', hb, rfl⟩ := parity_cases q hq
  obtain ⟨r, c, hr', hc, rfl⟩ := parity_cases r hr
  obtain ⟨s, d, hs', hd', rfl⟩ := parity_cases s hs
  rw [hd.2 p hp' q hq' r hr' s hs' a ha b hb c hc d hd', hz.2 p hp' q hq' r hr' s hs' a ha b hb c hc d hd',
    hz.2 p hp' q hq' s hs' r hr' a ha b hb d hd' c hc]

theorem oneForm_doubled {l : ℕ} {x y : NDArray ℂ} (hd : IsDoubledOneBody l l x y) (v : ℕ → ℂ) :
    oneForm (2 * l) y v = ∑ a ∈ range 2, oneForm l x fun p => v (2 * p + a) := by
  unfold oneForm
  rw [sum_range_two_mul, sum_comm]
  refine sum_congr rfl fun a ha => sum_congr rfl fun p hp => ?_
  rw [sum_range_two_mul]
  refine sum_congr rfl fun q hq => ?_
  simp only [mem_range] at ha hp hq
  rw [sum_eq_single_of_mem a (mem_range.2 ha) fun b hb hne => ?_]
  · rw [hd.2 p hp q hq a ha a ha, if_pos rfl]
  · rw [hd.2 p hp q hq a ha b (mem_range.1 hb), if_neg hne.symm, mul_zero, zero_mul]

theorem BoundedBelow.doubled {m : ℝ} {l : ℕ} {h h' s s' : NDArray ℂ} (hb : BoundedBelow m l h s)
    (hh : IsDoubledOneBody l l h h') (hs : IsDoubledOneBody l l s s') : BoundedBelow m (2 * l) h' s' := by
  intro v
  rw [oneForm_doubled hh, oneForm_doubled hs, Complex.re_sum, Complex.re_sum, mul_sum]
  exact sum_le_sum fun a _ => hb _

theorem BoundedBelow.changed {m : ℝ} {l n : ℕ} {h h' s s' C Ct : NDArray ℂ} (hb : BoundedBelow m l h s)
    (hC : ∀ p < n, ∀ a < l, Ct.get [p, a] = star (C.get [a, p])) (hh : IsOneBody C Ct l n h h')
    (hs : IsOneBody C Ct l n s s') : BoundedBelow m n h' s' := by
  intro v
  rw [oneForm_changed hC hh, oneForm_changed hC hs]
  exact hb _

theorem PosU.changed {l n : ℕ} {u u' C Ct : NDArray ℂ} (h : PosU l u)
    (hC : ∀ p < n, ∀ a < l, Ct.get [p, a] = star (C.get [a, p])) (hu : IsTwoBody C Ct l n u u') : PosU n u' := by
  intro v
  rw [pairForm_changed hC hu]
  exact h _

theorem BoundedBelow.diag {m : ℝ} {l : ℕ} {h s : NDArray ℂ} (hb : BoundedBelow m l h s) {p : ℕ} (hp : p < l) :
    m * (s.get [p, p]).re ≤ (h.get [p, p]).re := by
  have := hb fun P => if P = p then 1 else 0
  unfold oneForm at this
  rwa [form_single (fun P R => s.get [P, R]) (mem_range.2 hp), form_single (fun P R => h.get [P, R])
    (mem_range.2 hp)] at this

/-! ### energies -/

theorem energySpatial_ge {l n : ℕ} {h u : NDArray ℂ} (hn : n ≤ l) (hu : PosU l u) (he : ExchU l u) :
    2 * ∑ i ∈ range n, (h.get [i, i]).re + ∑ i ∈ range n, ∑ j ∈ range n, (u.get [i, j, i, j]).re
      ≤ (energySpatial n h u).re := by
  unfold energySpatial
  rw [Complex.add_re, show (2 : ℂ) = ((2 : ℝ) : ℂ) by norm_num, Complex.re_ofReal_mul, Complex.re_sum, Complex.re_sum]
  simp only [Complex.re_sum]
  refine add_le_add le_rfl (sum_le_sum fun i hi => sum_le_sum fun j hj => ?_)
  have hi := mem_range.1 hi
  have hj := mem_range.1 hj
  have h1 := (hu.exchange he (p := i) (q := j) (by omega) (by omega)).2
  have h2 := (Complex.abs_re_le_norm (u.get [i, j, j, i])).trans h1
  rw [Complex.sub_re, Complex.re_ofReal_mul]
  linarith [abs_le.1 h2]

theorem energyGeneral_ge {l n : ℕ} {h u : NDArray ℂ} (hn : n ≤ l) (hu : PosU l u) :
    ∑ i ∈ range n, (h.get [i, i]).re ≤ (energyGeneral n h u).re := by
  unfold energyGeneral
  rw [Complex.add_re, show (1 / 2 : ℂ) = ((1 / 2 : ℝ) : ℂ) by norm_num, Complex.re_ofReal_mul, Complex.re_sum,
    Complex.re_sum]
  simp only [Complex.re_sum]
  refine le_add_of_nonneg_right (mul_nonneg (by norm_num) (sum_nonneg fun i hi => sum_nonneg fun j hj => ?_))
  have hi := mem_range.1 hi
  have hj := mem_range.1 hj
  exact (hu.direct (by omega) (by omega)).2

end QS
