import Verif.Props.Gradient
import Verif.Props.Keywords
import Verif.Props.OneDimSpectrum
import Verif.Props.Magnetic
import Verif.Props.SpinDoubling
import Mathlib.Data.ZMod.Basic

/-!
# Conserved quantum numbers of the Fock matrices (C100)
-/

namespace QS.Props

open Finset NDArray BasisSet PyM Coulomb TwoDim OneDim Idx Spec

variable {K T : Type} [PyScalar K] {G : Type}

/-- The one- and two-body elements conserve the quantum number `g p` of the orbitals: an element between states with
different totals is zero. -/
structure Conserves [Add G] (g : ℕ → G) (l : ℕ) (H U : NDArray K) : Prop where
  one : ∀ p < l, ∀ q < l, g p ≠ g q → H.get [p, q] = 0
  two : ∀ p < l, ∀ q < l, ∀ r < l, ∀ s < l, g p + g q ≠ g r + g s → U.get [p, q, r, s] = 0

/-- **C100** If the elements of a basis set conserve a quantum number, so does the Fock matrix, for every number of
occupied orbitals and both classes of system. -/
theorem C100_fock [AddCommMonoid G] [IsCancelAdd G] {g : ℕ → G} {w : World K T} {s : ℕ} {x : Sys} {b : BasisSet K}
    {F H U : NDArray K} (ok : SysOK w s x b) (hh : b.h = some H) (hu : b.u = some U) (hF : FockOf x b F)
    (hc : Conserves g x.l H U) : ∀ p < x.l, ∀ q < x.l, g p ≠ g q → F.get [p, q] = 0 := by
  intro p hp q hq hg
  have hle := ok.size.le
  have e1 : ∀ i ∈ range x.n, U.get [p, i, q, i] = 0 := fun i hi =>
    hc.two p hp i (by have := mem_range.1 hi; omega) q hq i (by have := mem_range.1 hi; omega)
      fun h => hg (add_right_cancel h)
  have e2 : ∀ i ∈ range x.n, 2 * U.get [p, i, q, i] - U.get [p, i, i, q] = 0 := fun i hi => by
    rw [e1 i hi, hc.two p hp i (by have := mem_range.1 hi; omega) i (by have := mem_range.1 hi; omega) q hq
      fun h => hg (by rw [add_comm (g i)] at h; exact add_right_cancel h), mul_zero, sub_zero]
  rw [fockOf_get ok hh hu hF hp hq]
  cases x.kind with
  | general => rw [fockAt, fockGeneralAt, hc.one p hp q hq hg, sum_eq_zero e1, add_zero]
  | spatial => rw [fockAt, fockSpatialAt, hc.one p hp q hq hg, sum_eq_zero e2, add_zero]

/-- **C100** After the change to a general basis the elements also conserve the spin direction, anti-symmetrised or
not. -/
theorem C100_general [AddCommMonoid G] {g : ℕ → G} {b b' : BasisSet K} {l : ℕ} {anti : Bool} {H U H' U' : NDArray K}
    (hg : GeneralOf b b' l anti) (hh : b.h = some H) (hu : b.u = some U) (hh' : b'.h = some H')
    (hu' : b'.u = some U') (hc : Conserves g l H U) :
    Conserves (fun p => (g (p / 2), p % 2)) (2 * l) H' U' := by
  have h1 := hg.h
  have h2 := hg.u
  rw [hh, hh'] at h1
  rw [hu, hu'] at h2
  constructor
  · intro p hp q hq hne
    have e := h1.2 (p / 2) (by omega) (q / 2) (by omega) (p % 2) (by omega) (q % 2) (by omega)
    rw [Nat.div_add_mod, Nat.div_add_mod] at e
    rw [e]
    split_ifs with hpq
    · exact hc.one _ (by omega) _ (by omega) fun h => hne (Prod.ext h hpq)
    · rfl
  · intro p hp q hq r hr s hs hne
    have d : (if p % 2 = r % 2 ∧ q % 2 = s % 2 then U.get [p / 2, q / 2, r / 2, s / 2] else 0) = 0 := by
      split_ifs with hpq
      · refine hc.two _ (by omega) _ (by omega) _ (by omega) _ (by omega) fun h => hne (Prod.ext h ?_)
        show p % 2 + q % 2 = r % 2 + s % 2
        rw [hpq.1, hpq.2]
      · rfl
    have x : (if p % 2 = s % 2 ∧ q % 2 = r % 2 then U.get [p / 2, q / 2, s / 2, r / 2] else 0) = 0 := by
      split_ifs with hpq
      · refine hc.two _ (by omega) _ (by omega) _ (by omega) _ (by omega) fun h =>
          hne (Prod.ext (h.trans (add_comm _ _)) ?_)
        show p % 2 + q % 2 = r % 2 + s % 2
        rw [hpq.1, hpq.2, add_comm]
      · rfl
    split_ifs at h2
    · have e := h2.2 (p / 2) (by omega) (q / 2) (by omega) (r / 2) (by omega) (s / 2) (by omega)
        (p % 2) (by omega) (q % 2) (by omega) (r % 2) (by omega) (s % 2) (by omega)
      simp only [Nat.div_add_mod] at e
      rw [e, d, x, sub_zero]
    · have e := h2.2 (p / 2) (by omega) (q / 2) (by omega) (r / 2) (by omega) (s / 2) (by omega)
        (p % 2) (by omega) (q % 2) (by omega) (r % 2) (by omega) (s % 2) (by omega)
      simp only [Nat.div_add_mod] at e
      rw [e, d]

/-- **C100** The two-dimensional oscillator conserves the angular momentum. -/
theorem C100_tdho (l num : ℕ) (radiusLength omega mass : ℝ) (np : Module) (sp an : Bool) :
    ∃ b h u, tdho (getCoulombElementsRaw l) l num radiusLength omega mass np sp an = .ok b ∧ b.h = some h ∧
      b.u = some u ∧ Conserves (fun p => (getIndicesNm p).2) l h u := by
  obtain ⟨u, hu, -, h0⟩ := C44_selection_rule l
  obtain ⟨b, h1, hb, hh⟩ := tdho_ok u l num radiusLength omega mass np
  refine ⟨flagged sp an b, _, _, ?_, hh, hb.u_eq, fun p hp q hq hne => ?_, fun p _ q _ r _ s _ hne => ?_⟩
  · rw [C97_tdho, hu, h1]; rfl
  · unfold oscillatorH
    rw [NDArray.smul_get, ofFn_get_of (show InRange [l, l] [p, q] from ⟨hp, hq, trivial⟩)]
    simp only [List.getD_cons_zero, List.getD_cons_succ]
    rw [if_neg fun h => hne (by rw [h]), mul_zero]
  · rw [NDArray.smul_get, h0 p q r s hne, mul_zero]

/-- **C100** The double well conserves the parity of the angular momentum (the wells along either axis are symmetric
under a rotation by 180 degrees). -/
theorem C100_double_well (l num : ℕ) (radiusLength omega mass barrier : ℝ) (axis : ℕ) (np : Module) (sp an : Bool) :
    ∃ b h u, doubleWell (getCoulombElementsRaw l) l num radiusLength omega mass barrier axis np sp an = .ok b ∧
      b.h = some h ∧ b.u = some u ∧ Conserves (fun p => ((getIndicesNm p).2 : ZMod 2)) l h u := by
  obtain ⟨u, hu, -, h0⟩ := C44_selection_rule l
  obtain ⟨b, h1, hb, hh⟩ := doubleWell_ok u l num radiusLength omega mass barrier axis np
  refine ⟨flagged sp an b, _, _, ?_, hh, hb.u_eq, fun p hp q hq hne => ?_, fun p _ q _ r _ s _ hne => ?_⟩
  · rw [C97_double_well, hu, h1]; rfl
  · rw [ofFn_get_of (show InRange [l, l] [p, q] from ⟨hp, hq, trivial⟩)]
    simp only [List.getD_cons_zero, List.getD_cons_succ]
    have hpq : p ≠ q := fun h => hne (by rw [h])
    have hodd : |(getIndicesNm p).2 - (getIndicesNm q).2| % 2 = 1 := by
      have : ¬ (2 : ℤ) ∣ (getIndicesNm q).2 - (getIndicesNm p).2 := fun h =>
        hne (((ZMod.intCast_eq_intCast_iff_dvd_sub _ _ 2)).2 (by exact_mod_cast h))
      rcases abs_choice ((getIndicesNm p).2 - (getIndicesNm q).2) with h | h <;> rw [h] <;> omega
    unfold doubleWellEntry theta1Tilde theta2Tilde
    rw [if_neg hpq, if_pos hodd, if_pos hodd]
    simp
  · rw [NDArray.smul_get, h0 p q r s fun h => hne (by exact_mod_cast congrArg (Int.cast : ℤ → ZMod 2) h), mul_zero]

/-- **C100** The oscillator in a magnetic field conserves the angular momentum. -/
theorem C100_magnetic {l num : ℕ} {radiusLength omega0 mass omegaC : ℝ} {np : Module} {sp an : Bool}
    {b : BasisSet ℂ} {df : List Row} (h : oscB l num radiusLength omega0 mass omegaC np sp an = .ok (b, df)) :
    ∃ x u, b.h = some x ∧ b.u = some u ∧ Conserves (fun p => (indicesNmB df p).2) l x u := by
  rw [C97_magnetic] at h
  cases h' : oscB l num radiusLength omega0 mass omegaC np with
  | error e => rw [h'] at h; cases h
  | ok y =>
    rw [h'] at h
    cases h
    obtain ⟨b, df⟩ := y
    obtain ⟨hd, x, hx, -, ex⟩ := C51_one_body h'
    obtain ⟨b', hh, u, h1, h2, h3, -, -, -, h4, h5, h6, -⟩ := oscB_ok hd num radiusLength mass np
    rw [h'] at h1
    cases h1
    refine ⟨x, _, hx, h6, fun p hp q hq hne => ?_, fun p hp q hq r hr s hs hne => ?_⟩
    · rw [ex p q hp hq, if_neg fun h => hne (by rw [h])]
    · rw [getCoulombElementsB_eq] at h3
      cases h3
      rw [toComplex_get, NDArray.smul_get, ofFn_get_of (show InRange [l, l, l, l] [p, q, r, s] from
        ⟨hp, hq, hr, hs, trivial⟩)]
      simp only [List.getD_cons_zero, List.getD_cons_succ]
      rw [coulombHo, if_pos (by rwa [add_comm (indicesNmB df s).2])]
      simp

/-- **C100** The one-dimensional oscillator conserves parity. -/
theorem C100_odho (l : ℕ) (L : ℝ) {num : ℕ} (h2 : 2 ≤ num) (omega : ℝ) {a : ℝ} (h0 : a ≠ 0)
    (alpha beta : ℝ) (np : Module) (sp an : Bool) :
    ∃ b h u, odho l L num omega a alpha beta np sp an = .ok b ∧ b.h = some h ∧ b.u = some u ∧
      Conserves (fun p => (p : ZMod 2)) l h u := by
  obtain ⟨b, f, u, h1, -, hu, -, hp⟩ := C88_odho l L h2 omega h0 alpha beta np sp an
  obtain ⟨b', h1', -, hh, -⟩ := odho_ok l L h2 omega a alpha beta np sp an
  rw [h1] at h1'
  cases h1'
  refine ⟨b, _, u, h1, hh, hu, fun p hp q hq hne => ?_, fun p hp' q hq r hr s hs hne => ?_⟩
  · rw [ofFn_get_of (show InRange [l, l] [p, q] from ⟨hp, hq, trivial⟩)]
    simp only [List.getD_cons_zero, List.getD_cons_succ]
    rw [if_neg fun h => hne (by rw [h])]
  · refine hp p q r s hp' hq hr hs ?_
    by_contra hodd
    rw [Nat.not_odd_iff_even] at hodd
    refine hne ?_
    rw [← Nat.cast_add, ← Nat.cast_add, ZMod.natCast_eq_natCast_iff']
    rw [Nat.even_iff] at hodd
    omega

/-- The parities of the functions of a one-dimensional dot in a symmetric well. -/
theorem odqd_parity {eigh : NDArray ℂ → Except PyErr (NDArray ℂ × NDArray ℂ)} (he : IsEigh eigh)
    {l num : ℕ} {L : ℝ} (hL : 0 < L) (h3 : 3 ≤ num) (hl : l ≤ num - 2) {a : ℝ} (h0 : a ≠ 0) (alpha beta : ℝ)
    {V : ℝ → ℝ} (hV : ∀ y, V (-y) = V y) (hm : Bool) (np : Module) (sp an : Bool) :
    ∃ b f h d u, odqd eigh l L num a alpha beta V hm np sp an = .ok b ∧ b.spf = some f ∧ b.h = some h ∧ b.dipole = some d ∧
      b.u = some u ∧ ∃ g : ℕ → ZMod 2, Conserves g l h u ∧
        (∀ p < l, ∀ i < num, f.get [p, num - 1 - i] = (if g p = 0 then 1 else -1) * f.get [p, i]) ∧
        (beta = 0 → ∀ p < l, ∀ q < l, g p = g q → d.get [0, p, q] = 0) := by
  obtain ⟨b, f, d, u, h1, hf, hd, hu, σ, hσ, hdz, hc⟩ := C88_odqd he hL h3 hl h0 alpha beta hV hm np sp an
  obtain ⟨b', H, w, v, h1', hH, E, hb, hh, hdip⟩ := odqd_ok he L h3 hl a alpha beta V hm np sp an
  rw [h1] at h1'
  cases h1'
  have hval : ∀ p < l, σ p = if (if σ p = 1 then (0 : ZMod 2) else 1) = 0 then 1 else -1 := by
    intro p hp
    rcases (hσ p hp).1 with h | h
    · rw [if_pos h, if_pos rfl, h]
    · rw [h, if_neg (show ¬ ((-1 : ℂ) = 1) by norm_num), if_neg (by decide)]
  refine ⟨b, f, _, d, u, h1, hf, hh, hd, hu, fun p => if σ p = 1 then 0 else 1,
    ⟨fun p hp q hq hne => ?_, fun p hp q hq r hr s hs hne => ?_⟩, fun p hp i hi => ?_, fun hb p hp q hq hg => ?_⟩
  · rw [ofFn_get_of (show InRange [l, l] [p, q] from ⟨hp, hq, trivial⟩)]
    simp only [List.getD_cons_zero, List.getD_cons_succ]
    rw [if_neg fun h => hne (by rw [h])]
  · refine hc p q r s hp hq hr hs ?_
    have e0 : (if (1 : ℂ) = 1 then (0 : ZMod 2) else 1) = 0 := if_pos rfl
    have e1 : (if (-1 : ℂ) = 1 then (0 : ZMod 2) else 1) = 1 := if_neg (by norm_num)
    rcases (hσ p hp).1 with h | h <;> rcases (hσ q hq).1 with h' | h' <;> rcases (hσ r hr).1 with h'' | h'' <;>
      rcases (hσ s hs).1 with h3 | h3 <;> rw [h, h', h'', h3] at hne ⊢ <;>
      first | (norm_num; done) | (simp only [e0, e1] at hne; exact absurd (by decide) hne)
  · rw [← hval p hp]
    exact (hσ p hp).2 i hi
  · refine hdz hb p q hp hq ?_
    rw [hval p hp, hval q hq]
    dsimp only at hg
    rw [hg]

/-- **C100** A one-dimensional dot in a symmetric well conserves parity; `g p = 0` for even and `1` for odd functions. -/
theorem C100_odqd {eigh : NDArray ℂ → Except PyErr (NDArray ℂ × NDArray ℂ)} (he : IsEigh eigh)
    {l num : ℕ} {L : ℝ} (hL : 0 < L) (h3 : 3 ≤ num) (hl : l ≤ num - 2) {a : ℝ} (h0 : a ≠ 0) (alpha beta : ℝ)
    {V : ℝ → ℝ} (hV : ∀ y, V (-y) = V y) (hm : Bool) (np : Module) (sp an : Bool) :
    ∃ b f h u, odqd eigh l L num a alpha beta V hm np sp an = .ok b ∧ b.spf = some f ∧ b.h = some h ∧ b.u = some u ∧
      ∃ g : ℕ → ZMod 2, Conserves g l h u ∧ ∀ p < l, ∀ i < num,
        f.get [p, num - 1 - i] = (if g p = 0 then 1 else -1) * f.get [p, i] := by
  obtain ⟨b, f, h, d, u, h1, hf, hh, -, hu, g, hc, hg, -⟩ := odqd_parity he hL h3 hl h0 alpha beta hV hm np sp an
  exact ⟨b, f, h, u, h1, hf, hh, hu, g, hc, hg⟩

/-- Two electrons in a two-dimensional dot of three functions (`m = 0, -1, 1`): the Fock matrix is diagonal, so the
reference energy is stationary (C99) under all rotations of the orbitals. -/
example : ∃ (b : BasisSet ℂ) (F : NDArray ℂ), tdho (getCoulombElementsRaw 3) 3 11 4 2 1 0 = .ok b ∧
    FockOf (World.newSys .spatial 0 1 3 b.np) b F ∧ F.get [0, 1] = 0 ∧ F.get [1, 2] = 0 ∧
    ∀ C Ct C' Ct' E, EnergyCurve (T := ℤ) { bases := [b], systems := [World.newSys .spatial 0 1 3 b.np], ops := [] } 0
      (World.newSys .spatial 0 1 3 b.np) C Ct C' Ct' E →
      Biorthonormal (World.newSys .spatial 0 1 3 b.np) C Ct → HasDerivAt E 0 0 := by
  obtain ⟨b, h, u, h1, hh, hu, hc⟩ := C100_tdho 3 11 4 2 1 0 false false
  obtain ⟨b', h1', hb⟩ := C91_tdho 3 11 4 2 1 0
  rw [h1] at h1'
  cases h1'
  obtain ⟨u', hu', -, hE⟩ := hb.u
  rw [hu] at hu'
  cases hu'
  have ok : SysOK (T := ℤ) { bases := [b], systems := [World.newSys .spatial 0 1 3 b.np], ops := [] } 0
      (World.newSys .spatial 0 1 3 b.np) b :=
    ⟨rfl, rfl, hb.wf, rfl, World.newSys_sized (by norm_num)⟩
  obtain ⟨F, hF⟩ := fockOf_exists ok hh hu (by
    obtain ⟨v, hv, -⟩ := C44_selection_rule 3
    obtain ⟨b', h1', hb', hh'⟩ := tdho_ok v 3 11 4 2 1 0
    rw [← hv, h1] at h1'
    cases h1'
    rw [hh] at hh'
    have e := hb'.u_eq
    rw [hu] at e
    cases hh'
    cases e
    rw [getCoulombElementsRaw_eq] at hv
    cases hv
    rfl)
  have h0 : ∀ p < 3, ∀ q < 3, (getIndicesNm p).2 ≠ (getIndicesNm q).2 → F.get [p, q] = 0 :=
    C100_fock ok hh hu hF hc
  refine ⟨b, F, h1, hF, h0 0 (by decide) 1 (by decide) (by decide +kernel),
    h0 1 (by decide) 2 (by decide) (by decide +kernel), ?_⟩
  refine (C99_stationary_iff ok (hb.noSpin.spinShaped 3) hu hE hF).2 fun i hi a ha hal => ?_
  have hi : i = 0 := Nat.lt_one_iff.1 hi
  subst hi
  have ha : 1 ≤ a := ha
  have hal : a < 3 := hal
  interval_cases a
  · exact ⟨h0 _ (by decide) _ (by decide) (by decide +kernel), h0 _ (by decide) _ (by decide) (by decide +kernel)⟩
  · exact ⟨h0 _ (by decide) _ (by decide) (by decide +kernel), h0 _ (by decide) _ (by decide) (by decide +kernel)⟩

end QS.Props
