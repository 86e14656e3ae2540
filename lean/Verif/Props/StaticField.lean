import Verif.Lemmas.StaticField
import Verif.Spec.StaticField
import Verif.Props.Continuity

/-!
# A static field is a tilted potential (C149)
-/

namespace QS.Props

open OneDim NDArray Spec BasisSet Finset World SincDvr

/-- **C149** `ODQD` with `l` functions and with the potential `V`, and `ODQD` with all functions of the grid and with the tilted
potential `V'(x) = V(x) + F (x + β x²)` (at the inner points of the grid): the functions of the first one are orthonormal
combinations of those of the second one, and what a field of the strength `F` makes of the elements of the first one, `h + F d`, is
the `h` of the second one in these combinations.  The eigenvalue solvers and the other arguments may differ. -/
theorem C149_odqd {eigh eigh' : NDArray ℂ → Except PyErr (NDArray ℂ × NDArray ℂ)} (he : IsEigh eigh) (he' : IsEigh eigh')
    {l num : ℕ} {L : ℝ} (hL : 0 < L) (h3 : 3 ≤ num) (hl : l ≤ num - 2) {a alpha beta F : ℝ} {V V' : ℝ → ℝ}
    (hV : ∀ i, 1 ≤ i → i < num - 1 → V' (TwoDim.linspace (-L) L num i) = V (TwoDim.linspace (-L) L num i) +
      F * (TwoDim.linspace (-L) L num i + beta * TwoDim.linspace (-L) L num i ^ 2))
    {hm hm' : Bool} {np np' : Module} {sp an sp' an' : Bool} {b b' : BasisSet ℂ}
    (run : odqd eigh l L num a alpha beta V hm np sp an = .ok b)
    (run' : odqd eigh' (num - 2) L num a alpha beta V' hm' np' sp' an' = .ok b') :
    ∃ h u d f h' u' d' f', b.h = some h ∧ b.u = some u ∧ b.dipole = some d ∧ b.spf = some f ∧
      b'.h = some h' ∧ b'.u = some u' ∧ b'.dipole = some d' ∧ b'.spf = some f' ∧
      ∃ D, ∀ H, H.shape = [l, l] → (∀ p < l, ∀ q < l, H.get [p, q] = h.get [p, q] + F * d.get [0, p, q]) →
        Combined D (num - 2) l 1 h' u' d' f' H u d f := by
  obtain ⟨b₁, h, u, C, run₁, h1, h2, hC, uni, one, two, d, f, h4, dip, -, -, -, hspf, -, fs, -, fv⟩ :=
    odqd_grid he hL h3 hl a alpha beta V hm np sp an
  obtain rfl := Except.ok.inj (run.symm.trans run₁)
  obtain ⟨b₂, h', u', C', run₂, h1', h2', hC', uni', one', two', d', f', h4', dip', -, -, -, hspf', -, fs', -, fv'⟩ :=
    odqd_grid he' hL h3 le_rfl a alpha beta V' hm' np' sp' an'
  obtain rfl := Except.ok.inj (run'.symm.trans run₂)
  have ds : d.shape = [1, l, l] := by
    obtain ⟨b₃, _, _, _, run₃, -, -, -, -, -, h5⟩ := odqd_ok' he L h3 hl a alpha beta V hm np sp an
    obtain rfl := Except.ok.inj (run.symm.trans run₃)
    obtain rfl := Option.some.inj (h4.symm.trans h5)
    rfl
  have dip2 : ∀ {m : ℕ} {C d : NDArray ℂ}, C.shape = [num - 2, m] → (∀ p < m, ∀ q < m, d.get [0, p, q] = ∑ k ∈ range (num - 2),
      star (C.get [k, p]) * ((TwoDim.linspace (-L) L num (k + 1) + beta * TwoDim.linspace (-L) L num (k + 1) ^ 2 : ℝ) : ℂ) *
        C.get [k, q]) → ∀ p < m, ∀ q < m, d.get [0, p, q] = ∑ j ∈ range (num - 2), ∑ k ∈ range (num - 2), C.conj.T.get [p, j] *
      (if j = k then ((TwoDim.linspace (-L) L num (k + 1) + beta * TwoDim.linspace (-L) L num (k + 1) ^ 2 : ℝ) : ℂ) else 0) *
        C.get [k, q] := fun {m C d} hC dip p hp q hq => by
    rw [dip p hp q hq]
    refine sum_congr rfl fun j hj => ?_
    rw [sum_eq_single_of_mem j hj fun k _ hk => by rw [if_neg (Ne.symm hk), mul_zero, zero_mul], if_pos rfl, conjT_get2 C hC]
  refine ⟨h, u, d, f, h', u', d', f', h1, h2, h4, hspf, h1', h2', h4', hspf', frameChange (num - 2) l C C', fun H Hs He => ?_⟩
  refine ⟨rfl, frameChange_uni uni uni', ⟨Hs, fun p hp q hq => ?_⟩, frameChange_two uni' hC hC' two two', ⟨ds, fun i hi p hp q hq => ?_⟩,
    ?_, fun p hp g hg => ?_⟩
  · refine frameChange_one (h := fun p q => H.get [p, q]) (h' := fun p q => h'.get [p, q])
      (g := fun j k => (gridMatrix V' L num).get [j, k]) uni' hC hC' (fun p hp q hq => ?_) (fun p hp q hq => one'.2 p hp q hq) hp hq
    rw [He p hp q hq, one.2 p hp q hq, dip2 hC dip p hp q hq, mul_sum, ← sum_add_distrib]
    refine sum_congr rfl fun j hj => ?_
    rw [mul_sum, ← sum_add_distrib]
    refine sum_congr rfl fun k hk => ?_
    have e := gridMatrix_sub V' V L (mem_range.1 hj) (mem_range.1 hk)
    have hj := mem_range.1 hj
    by_cases hjk : j = k
    · subst hjk
      rw [if_pos rfl, hV (j + 1) (by omega) (by omega), add_sub_cancel_left] at e
      rw [if_pos rfl, ← sub_add_cancel ((gridMatrix V' L num).get [j, j]) ((gridMatrix V L num).get [j, j]), e]
      push_cast
      ring
    · rw [if_neg hjk] at e
      rw [if_neg hjk, sub_eq_zero.1 e]
      ring
  · obtain rfl : i = 0 := by omega
    exact frameChange_one (h := fun p q => d.get [0, p, q]) (h' := fun p q => d'.get [0, p, q]) uni' hC hC'
      (dip2 hC dip) (dip2 hC' dip') hp hq
  · rw [fs, fs']
    rfl
  · rw [fs'] at hg
    obtain ⟨j, rfl, hj⟩ : ∃ j, g = [j] ∧ j < num := by
      match g, hg with
      | [j], hg => exact ⟨j, rfl, hg.1⟩
    obtain ⟨z0, z1, zi⟩ := fv p hp
    rcases Nat.eq_zero_or_pos j with rfl | h0
    · rw [z0]
      exact (sum_eq_zero fun q hq => by rw [(fv' q (mem_range.1 hq)).1, mul_zero]).symm
    · by_cases h1 : j = num - 1
      · subst h1
        rw [z1]
        exact (sum_eq_zero fun q hq => by rw [(fv' q (mem_range.1 hq)).2.1, mul_zero]).symm
      · obtain ⟨k, rfl⟩ : ∃ k, j = k + 1 := ⟨j - 1, by omega⟩
        rw [zi k (by omega), ← frameChange_back (C := C) uni' (by omega : k < num - 2) hp, sum_div]
        refine sum_congr rfl fun q hq => ?_
        rw [(fv' q (mem_range.1 hq)).2.2 k (by omega)]
        ring

/-- **C149** A system made of `ODQD` whose `LaserField` has, at the time `t`, the strength `F`: what `h_t` and `u_t` return, whatever
is read in between, are the elements of the tilted dot, in orthonormal combinations of its functions.  The energies of `N` electrons
with them are never below those in the tilted dot, and the same if `l = num - 2`. -/
theorem C149_laser {eigh eigh' : NDArray ℂ → Except PyErr (NDArray ℂ × NDArray ℂ)} (he : IsEigh eigh) (he' : IsEigh eigh')
    {l num : ℕ} {L : ℝ} (hL : 0 < L) (h3 : 3 ≤ num) (hl : l ≤ num - 2) {a alpha beta : ℝ} {V : ℝ → ℝ}
    {hm : Bool} {np : Module} {sp an : Bool} {b : BasisSet ℂ}
    (run : odqd eigh l L num a alpha beta V hm np sp an = .ok b)
    {w w' : World ℂ ℝ} {s o : ℕ} {x : Sys} {y : TEOp ℂ ℝ}
    {pulse : Attr ℂ ℝ} {pol : Option (Attr ℂ ℝ)} {v : ℝ → Val ℂ} {c : ℝ → ℂ} {e : ℝ → ℕ → ℂ}
    (ok : SysOK w s x b) (hy : w.ops[o]? = some y)
    (hk : y.kind = .laser pulse pol) (hp : Given pulse v) (hf : ∀ t, IsNumber (v t) (c t))
    (hpol : GivenPol pol b.dim e)
    (callable : IsCallable pulse ∨ ∃ a, pol = some a ∧ IsCallable a)
    (hset : (setTimeEvolutionOperator s (some o)).run w = (.ok (), w')) :
    ∃ d f, b.dipole = some d ∧ b.spf = some f ∧ (∃ H U, Answered w' s o H U) ∧ ∀ H U, Answered w' s o H U →
      ∀ (F : ℝ) (V' : ℝ → ℝ), (∀ i, 1 ≤ i → i < num - 1 → V' (TwoDim.linspace (-L) L num i) = V (TwoDim.linspace (-L) L num i) +
        F * (TwoDim.linspace (-L) L num i + beta * TwoDim.linspace (-L) L num i ^ 2)) →
      ∀ hm' np' sp' an', ∃ b' h' u' d' f' D, odqd eigh' (num - 2) L num a alpha beta V' hm' np' sp' an' = .ok b' ∧
        b'.h = some h' ∧ b'.u = some u' ∧ b'.dipole = some d' ∧ b'.spf = some f' ∧
        ∀ t, c t * e t 0 = F → Combined D (num - 2) l 1 h' u' d' f' (H t) (U t) d f ∧
          ∀ N E E', ElectronEnergies l (H t) (U t) N E → ElectronEnergies (num - 2) h' u' N E' →
            (∀ k < (2 * l).choose N, E' k ≤ E k) ∧ (l = num - 2 → ∀ k < (2 * l).choose N, E k = E' k) := by
  obtain ⟨b₁, h, u, C, run₁, h1, h2, hC, uni, one, two, d, f, h4, dip, -, hbl, hdim, hspf, -⟩ :=
    odqd_grid he hL h3 hl a alpha beta V hm np sp an
  obtain rfl := Except.ok.inj (run.symm.trans run₁)
  have LA := C36_partial ok (by rw [h4]; rfl) hy hk hp hf hpol callable hset
  refine ⟨d, f, h4, hspf, laser_answered LA h2, fun H U A F V' hV hm' np' sp' an' => ?_⟩
  have an := answered_laser LA h1 h2 h4 A
  obtain ⟨b', -, -, -, run', -⟩ := odqd_grid he' hL h3 le_rfl a alpha beta V' hm' np' sp' an'
  obtain ⟨_, _, _, _, h', u', d', f', k1, k2, k4, ks, h1', h2', h4', hs', D, hD⟩ := C149_odqd he he' hL h3 hl hV run run'
  obtain rfl := Option.some.inj (h1.symm.trans k1)
  obtain rfl := Option.some.inj (h2.symm.trans k2)
  obtain rfl := Option.some.inj (h4.symm.trans k4)
  obtain rfl := Option.some.inj (hspf.symm.trans ks)
  refine ⟨b', h', u', d', f', D, run', h1', h2', h4', hs', fun t ht => ?_⟩
  have cb : Combined D (num - 2) l 1 h' u' d' f' (H t) (U t) d f := by
    rw [(an t).2]
    refine hD (H t) (by rw [(an t).1.shape, hbl]) fun p hp q hq => ?_
    rw [(an t).1.get p (by omega) q (by omega), hdim, sum_range_one, ← ht]
    ring
  refine ⟨cb, fun N E E' S S' => ⟨S'.truncate cb.shape cb.orthonormal cb.one cb.two S, ?_⟩⟩
  rintro rfl
  exact S'.transport cb.shape cb.orthonormal cb.one cb.two S

/-- **C149** Electrons in combinations of as many functions move like those in the functions: a solution of the Schroedinger equation
with the elements that a constant field gives is one with the elements of the tilted dot. -/
theorem C149_motion {D : NDArray ℂ} {n : ℕ} {h' u' d' f' d f : NDArray ℂ} {H U : ℝ → NDArray ℂ}
    (cb : ∀ t, Combined D n n 1 h' u' d' f' (H t) (U t) d f) {N : ℕ} {Ψ : ℝ → Wave ℂ N (2 * n)}
    (S : Evolves (fun t => spinOne n (H t)) (fun t => spinTwo n (U t)) Ψ) :
    Evolves (fun _ => spinOne n h') (fun _ => spinTwo n u') fun t => prodOp (fun _ => Matrix.of (spinMat n n D)) (Ψ t) := by
  refine Evolves.back (spin_isometry (cb 0).orthonormal) ?_
  rw [show (fun t : ℝ => spinOne n (H t)) = _ from funext fun t => (spin_one_changed (cb t).shape (cb t).one).symm,
    show (fun t : ℝ => spinTwo n (U t)) = _ from funext fun t => (spin_two_changed (cb t).shape (cb t).two).symm] at S
  exact S

/-- **C149** `ODSincDVR`, with any number of functions: at the times at which the field has the strength `F`, `h_t` returns the `h`
of the `ODSincDVR` object with the tilted potential, and the overlap, two-body and dipole elements and the functions are those of this
object. -/
theorem C149_sinc {l : ℕ} (h2 : 2 ≤ l) (L a alpha beta : ℝ) {V V' : ℝ → ℝ} {F : ℝ}
    (hV : ∀ i < l, V' (TwoDim.linspace (-L) L l i) = V (TwoDim.linspace (-L) L l i) +
      F * (TwoDim.linspace (-L) L l i + beta * TwoDim.linspace (-L) L l i ^ 2))
    {hm hm' : Bool} {np np' : Module} {sp an sp' an' : Bool} {b b' : BasisSet ℂ}
    (run : odSincDvr l L a alpha beta V .four hm np sp an = .ok b)
    (run' : odSincDvr l L a alpha beta V' .four hm' np' sp' an' = .ok b')
    {w w' : World ℂ ℝ} {s o : ℕ} {x : Sys} {y : TEOp ℂ ℝ}
    {pulse : Attr ℂ ℝ} {pol : Option (Attr ℂ ℝ)} {v : ℝ → Val ℂ} {c : ℝ → ℂ} {e : ℝ → ℕ → ℂ}
    (ok : SysOK w s x b) (hy : w.ops[o]? = some y)
    (hk : y.kind = .laser pulse pol) (hp : Given pulse v) (hf : ∀ t, IsNumber (v t) (c t))
    (hpol : GivenPol pol b.dim e)
    (callable : IsCallable pulse ∨ ∃ a, pol = some a ∧ IsCallable a)
    (hset : (setTimeEvolutionOperator s (some o)).run w = (.ok (), w')) :
    b.s = b'.s ∧ b.u = b'.u ∧ b.dipole = b'.dipole ∧ b.spf = b'.spf ∧ b.braSpf = b'.braSpf ∧ b.grid = b'.grid ∧
    ∃ h' u', b'.h = some h' ∧ b'.u = some u' ∧ (∃ H U, Answered w' s o H U) ∧ ∀ H U, Answered w' s o H U →
      ∀ t, c t * e t 0 = F → (H t).shape = h'.shape ∧ (∀ p < l, ∀ q < l, (H t).get [p, q] = h'.get [p, q]) ∧ U t = u' := by
  rw [odSincDvr_ok h2 L a alpha beta V (by simp) hm np sp an] at run
  obtain rfl := Except.ok.inj run
  rw [odSincDvr_ok h2 L a alpha beta V' (by simp) hm' np' sp' an'] at run'
  obtain rfl := Except.ok.inj run'
  have LA := C36_partial ok rfl hy hk hp hf hpol callable hset
  refine ⟨rfl, rfl, rfl, rfl, rfl, rfl, _, _, rfl, rfl, laser_answered LA rfl, fun H U A t ht => ?_⟩
  have ans := answered_laser LA rfl rfl rfl A t
  refine ⟨ans.1.shape, fun p hp q hq => ?_, ans.2⟩
  have e1 := sincH_sub V' V L hp hq
  rw [ans.1.get p hp q hq, show (sincObj l L a alpha beta V .four hm np sp an).dim = 1 from rfl, sum_range_one, ← mul_assoc, ht,
    ← sub_add_cancel ((sincH l L V').get [p, q]) ((sincH l L V).get [p, q]), e1, add_comm]
  congr 1
  unfold sincDip
  rw [ofFn_get_of (by exact ⟨by omega, hp, hq, trivial⟩)]
  simp only [List.getD_cons_zero, List.getD_cons_succ]
  split_ifs with h
  · rw [hV p hp]
    push_cast
    ring
  · rw [mul_zero]

/-- A field of the strength `2` in the empty box `[-3, 3]` with two inner points, at `-1` and `1`: the dot with the potential `2 x`. -/
example {eigh : NDArray ℂ → Except PyErr (NDArray ℂ × NDArray ℂ)} (he : IsEigh eigh) :
    ∃ b h d b' h' D, odqd eigh 2 3 4 1 1 0 (fun _ => 0) false 0 false false = .ok b ∧ b.h = some h ∧ b.dipole = some d ∧
      odqd eigh 2 3 4 1 1 0 (fun x => 2 * x) false 0 false false = .ok b' ∧ b'.h = some h' ∧
      IsOneBody D D.conj.T 2 2 h' (ofFn .complex128 [2, 2] fun i => h.get i + 2 * d.get (0 :: i)) := by
  obtain ⟨b, -, -, -, run, -⟩ := odqd_grid he (L := 3) (num := 4) (l := 2) (by norm_num) (by norm_num) (by norm_num) 1 1 0
    (fun _ => 0) false 0 false false
  obtain ⟨b', -, -, -, run', -⟩ := odqd_grid he (L := 3) (num := 4) (l := 2) (by norm_num) (by norm_num) (by norm_num) 1 1 0
    (fun x => 2 * x) false 0 false false
  obtain ⟨h, u, d, f, h', u', d', f', h1, h2, h4, hs, h1', h2', h4', hs', D, hD⟩ := C149_odqd he he (L := 3) (num := 4) (l := 2)
    (F := 2) (by norm_num) (by norm_num) (by norm_num) (fun i _ _ => by ring) run run'
  exact ⟨b, h, d, b', h', D, run, h1, h4, run', h1', (hD _ rfl fun p hp q hq => by
    rw [ofFn_get_of (by exact ⟨hp, hq, trivial⟩)]
    push_cast
    rfl).one⟩

/-- Two functions of `ODSincDVR` at `-1` and `1` in a field of the strength `3`: the energies `π²/24 - 3` and `π²/24 + 3`. -/
example : (sincH 2 1 fun x => 3 * x).get [0, 0] = ((Real.pi ^ 2 / 24 - 3 : ℝ) : ℂ) ∧
    (sincH 2 1 fun x => 3 * x).get [1, 1] = ((Real.pi ^ 2 / 24 + 3 : ℝ) : ℂ) := by
  unfold sincH
  rw [ofFn_get_of (by exact ⟨by omega, by omega, trivial⟩), ofFn_get_of (by exact ⟨by omega, by omega, trivial⟩)]
  simp [spacing, TwoDim.linspace]
  constructor
  · norm_num
    ring
  · norm_num

end QS.Props
