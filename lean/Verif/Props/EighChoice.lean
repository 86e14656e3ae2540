import Verif.Spec.EighChoice
import Verif.Lemmas.EighChoice
import Verif.Props.GridRate
import Verif.Props.OneDimSpectrum
import Verif.Props.Consistent
import Verif.Props.ManyElectrons
import Verif.Props.Determinant
import Verif.Props.SpinDoubling
import Verif.Props.Energy

/-!
# C133: results do not depend on which eigenvectors the solver returns
-/

namespace QS.Props

open NDArray BasisSet World Spec OneDim PyM Finset

/-! ## Eigenvectors -/

/-- **C133** Two correct results for the same matrix: the eigenvalues agree, the eigenvectors of the second are those of
the first times a unitary matrix that mixes only vectors with the same eigenvalue; the eigenvector of a simple eigenvalue
changes by a phase. -/
theorem C133_eigenvectors {n : ℕ} {h w v w' v' : NDArray ℂ} (F : EighOK n h w v) (F' : EighOK n h w' v') :
    (∀ k < n, w'.get [k] = w.get [k]) ∧
    (∃ Q : ℕ → ℕ → ℂ, (∀ k < n, ∀ j < n, v'.get [k, j] = ∑ i ∈ range n, v.get [k, i] * Q i j) ∧
      (∀ i < n, ∀ j < n, ∑ k ∈ range n, (starRingEnd ℂ) (Q k i) * Q k j = if i = j then 1 else 0) ∧
      (∀ i < n, ∀ j < n, ∑ k ∈ range n, Q i k * (starRingEnd ℂ) (Q j k) = if i = j then 1 else 0) ∧
      ∀ i < n, ∀ j < n, w.get [i] ≠ w.get [j] → Q i j = 0) ∧
    ∀ j < n, (∀ i < n, i ≠ j → w.get [i] ≠ w.get [j]) →
      ∃ c : ℂ, ‖c‖ = 1 ∧ ∀ k < n, v'.get [k, j] = c * v.get [k, j] := by
  have hz : ∀ i < n, ∀ j < n, w.get [i] ≠ w.get [j] → mixing n v v' i j = 0 := fun i hi j hj hne =>
    mixing_zero F F' hi hj (by rwa [← eigh_unique F F' hj])
  refine ⟨fun k hk => eigh_unique F' F hk, ⟨mixing n v v', fun k hk j _ => F.expand hk j,
    fun i hi j hj => mixing_columns F F' hi hj, fun i hi j hj => mixing_rows F F' hi hj, hz⟩, fun j hj hs => ?_⟩
  refine ⟨mixing n v v' j j, ?_, fun k hk => ?_⟩
  · have h1 := mixing_columns F F' hj hj
    rw [if_pos rfl, sum_eq_single_of_mem j (mem_range.2 hj) fun i hi hij => by
      rw [hz i (mem_range.1 hi) j hj (hs i (mem_range.1 hi) hij), mul_zero]] at h1
    rw [← Complex.normSq_eq_conj_mul_self, Complex.normSq_eq_norm_sq] at h1
    have h2 : ‖mixing n v v' j j‖ ^ 2 = 1 := by exact_mod_cast h1
    exact (pow_eq_one_iff_of_nonneg (norm_nonneg _) (by norm_num)).1 h2
  · rw [F.expand hk j, sum_eq_single_of_mem j (mem_range.2 hj) fun i hi hij => by
      rw [hz i (mem_range.1 hi) j hj (hs i (mem_range.1 hi) hij), mul_zero], mul_comm]

/-! ## One-dimensional dots -/

theorem trapezoid_mul (n : ℕ) (x : ℕ → ℝ) (c : ℂ) (f : ℕ → ℂ) :
    trapezoid n x (fun i => c * f i) = c * trapezoid n x f := by
  simp only [trapezoid, mul_sum]
  exact sum_congr rfl fun i _ => by ring

theorem trapezoid_congr' {n : ℕ} {x : ℕ → ℝ} {f g : ℕ → ℂ} (h : ∀ i < n, f i = g i) : trapezoid n x f = trapezoid n x g := by
  refine sum_congr rfl fun i hi => ?_
  have := mem_range.1 hi
  rw [h i (by omega), h (i + 1) (by omega)]

theorem coulombSum_phase {num : ℕ} {x : ℕ → ℝ} {φ φ' : ℕ → ℕ → ℂ} {c : ℕ → ℂ} {alpha a : ℝ} {p q r s : ℕ}
    (h : ∀ k ∈ [p, q, r, s], ∀ j < num, φ' k j = c k * φ k j) :
    coulombSum num x φ' alpha a p q r s
      = (starRingEnd ℂ) (c p * c q) * (c r * c s) * coulombSum num x φ alpha a p q r s := by
  unfold coulombSum
  rw [← trapezoid_mul]
  refine trapezoid_congr' fun i hi => ?_
  rw [← trapezoid_mul]
  refine trapezoid_congr' fun j hj => ?_
  rw [h p (by simp) i hi, h q (by simp) j hj, h r (by simp) i hi, h s (by simp) j hj]
  simp only [map_mul]
  ring

/-- The levels of the finite-difference matrix are distinct. -/
theorem odqd_distinct {L : ℝ} (hL : 0 < L) {num : ℕ} (h3 : 3 ≤ num) {eigh : NDArray ℂ → Except PyErr (NDArray ℂ × NDArray ℂ)}
    (he : IsEigh eigh) {V : ℝ → ℝ} {H w v : NDArray ℂ}
    (hH : H = ofFn .float64 [num - 2, num - 2] (fun i => (fdEntry V (TwoDim.linspace (-L) L num)
        ((L - -L) / ((num : ℝ) - 1)) (i.getD 0 0) (i.getD 1 0) : ℂ)))
    (F : EighOK (num - 2) H w v) {i j : ℕ} (hi : i < num - 2) (hj : j < num - 2) (hij : i ≠ j) :
    w.get [i] ≠ w.get [j] := by
  obtain ⟨b, f, h, h1, -, hh, -, -, hlt, -⟩ := C87_spectrum he hL h3 (le_refl (num - 2)) 1 1 0 V false 0 false false
  obtain ⟨b', H', w', v', h1', hH', -, F', -, hh', -⟩ := odqd_ok' he L h3 (le_refl (num - 2)) 1 1 0 V false 0 false false
  obtain rfl : b = b' := Except.ok.inj (h1.symm.trans h1')
  obtain rfl : H = H' := hH.trans hH'.symm
  have e : ∀ k < num - 2, h.get [k, k] = w.get [k] := fun k hk => by
    obtain rfl := Option.some.inj (hh.symm.trans hh')
    rw [ofFn_get_of (by exact ⟨hk, hk, trivial⟩)]
    simpa using eigh_unique F' F hk
  intro hw
  rcases lt_or_gt_of_ne hij with h' | h'
  · have := hlt i j h' hj
    rw [e i hi, e j hj, hw] at this
    exact lt_irrefl _ this
  · have := hlt j i h' hi
    rw [e i hi, e j hj, hw] at this
    exact lt_irrefl _ this

theorem conj_mul_self_of_unit {c : ℂ} (h : ‖c‖ = 1) : (starRingEnd ℂ) c * c = 1 := by
  rw [← Complex.normSq_eq_conj_mul_self, Complex.normSq_eq_norm_sq, h]
  norm_num

/-- **C133** `ODQD` objects set up with two different solvers have the same energies and overlaps; their functions differ
by phases, and so do the elements. -/
theorem C133_odqd {eigh eigh' : NDArray ℂ → Except PyErr (NDArray ℂ × NDArray ℂ)} (he : IsEigh eigh) (he' : IsEigh eigh')
    {l num : ℕ} {L : ℝ} (hL : 0 < L) (h3 : 3 ≤ num) (hl : l ≤ num - 2) (a alpha beta : ℝ) (V : ℝ → ℝ) (hm : Bool)
    (np : Module) (sp an : Bool) :
    ∃ b b' c, odqd eigh l L num a alpha beta V hm np sp an = .ok b ∧
      odqd eigh' l L num a alpha beta V hm np sp an = .ok b' ∧ b'.h = b.h ∧ b'.s = b.s ∧ UpToPhases c l b b' := by
  obtain ⟨b, H, w, v, h1, hH, -, F, O, hh, hd⟩ := odqd_ok' he L h3 hl a alpha beta V hm np sp an
  obtain ⟨b', H', w', v', h1', hH', -, F', O', hh', hd'⟩ := odqd_ok' he' L h3 hl a alpha beta V hm np sp an
  obtain rfl : H = H' := hH.trans hH'.symm
  obtain ⟨hw, -, hp⟩ := C133_eigenvectors F F'
  have ex : ∀ p, ∃ c : ℂ, ‖c‖ = 1 ∧ (p < num - 2 → ∀ k < num - 2, v'.get [k, p] = c * v.get [k, p]) := fun p => by
    by_cases hpn : p < num - 2
    · obtain ⟨c, hc, h⟩ := hp p hpn fun i hi hip => odqd_distinct hL h3 he hH F hi hpn hip
      exact ⟨c, hc, fun _ => h⟩
    · exact ⟨1, by simp, fun h => absurd h hpn⟩
  choose c hc hv using ex
  set dx := (L - -L) / ((num : ℝ) - 1)
  have hspf : ∀ p < l, ∀ j < num, (odqdSpf l num dx v').get [p, j] = c p * (odqdSpf l num dx v).get [p, j] :=
    fun p hp j hj => by
    rw [odqdSpf, odqdSpf, ofFn_get_of (by exact ⟨hp, hj, trivial⟩), ofFn_get_of (by exact ⟨hp, hj, trivial⟩)]
    simp only [List.getD_cons_zero, List.getD_cons_succ]
    split_ifs with hi
    · rw [hv p (by omega) (j - 1) (by omega)]
      ring
    · simp
  have eh : b'.h = b.h := by
    rw [hh, hh']
    congr 1
    refine ofFn_congr fun i hi => ?_
    split_ifs
    · obtain ⟨p, q, rfl, hp, hq⟩ := inRange_two.1 hi
      exact hw p (by omega)
    · rfl
  have es : b'.s = b.s := by rw [O.s_eq, O'.s_eq]
  refine ⟨b, b', c, h1, h1', eh, es, hc, by rw [O.l_eq, O'.l_eq], by rw [O.dim_eq, O'.dim_eq], ?_, ?_, ?_, ?_, ?_,
    by rw [O.grid_eq, O'.grid_eq], by rw [O.np_eq, O'.np_eq], by rw [O.spin_eq, O'.spin_eq], by rw [O.anti_eq, O'.anti_eq]⟩
  · rw [eh, hh]
    refine ⟨rfl, fun p hp q hq => ?_⟩
    rw [ofFn_get_of (by exact ⟨hp, hq, trivial⟩)]
    simp only [List.getD_cons_zero, List.getD_cons_succ]
    split_ifs with hpq
    · rw [hpq, conj_mul_self_of_unit (hc q), one_mul]
    · simp
  · rw [es, O.s_eq]
    refine ⟨rfl, fun p hp q hq => ?_⟩
    rw [eye_get l p q hp]
    split_ifs with hpq
    · rw [hpq, conj_mul_self_of_unit (hc q), one_mul]
    · simp
  · rw [O.u_eq, O'.u_eq]
    refine ⟨by rw [ofFn_shape, ofFn_shape], fun p hp q hq r hr s hs => ?_⟩
    rw [ofFn_get_of (by exact ⟨hp, hq, hr, hs, trivial⟩), ofFn_get_of (by exact ⟨hp, hq, hr, hs, trivial⟩)]
    refine coulombSum_phase fun k hk j hj => hspf k ?_ j hj
    simp only [List.getD_cons_zero, List.getD_cons_succ, List.mem_cons, List.not_mem_nil, or_false] at hk
    rcases hk with rfl | rfl | rfl | rfl <;> assumption
  · rw [hd, hd']
    refine ⟨by rw [ofFn_shape, ofFn_shape], fun i hi p hp q hq => ?_⟩
    rw [O.dim_eq] at hi
    rw [ofFn_get_of (by exact ⟨hi, hp, hq, trivial⟩), ofFn_get_of (by exact ⟨hi, hp, hq, trivial⟩), ← trapezoid_mul]
    simp only [List.getD_cons_zero, List.getD_cons_succ]
    refine trapezoid_congr' fun j hj => ?_
    rw [hspf p hp j hj, hspf q hq j hj, map_mul]
    ring
  · rw [O.spf_eq, O'.spf_eq]
    refine ⟨by rw [O.spf_shape, O'.spf_shape], fun p hp g hg => ?_⟩
    rw [O.spf_shape] at hg
    match g, hg with
    | [j], hg => exact hspf p hp j hg.1

/-- **C133** Hence the absolute values of all elements and functions agree: what the tests compare with the reference
data. -/
theorem C133_absolute {c : ℕ → ℂ} {l : ℕ} {b b' : BasisSet ℂ} (P : UpToPhases c l b b') :
    (∀ x y, b.u = some x → b'.u = some y → ∀ p < l, ∀ q < l, ∀ r < l, ∀ s < l,
      ‖y.get [p, q, r, s]‖ = ‖x.get [p, q, r, s]‖) ∧
    (∀ x y, b.dipole = some x → b'.dipole = some y → ∀ i < b.dim, ∀ p < l, ∀ q < l,
      ‖y.get [i, p, q]‖ = ‖x.get [i, p, q]‖) ∧
    (∀ x y, b.spf = some x → b'.spf = some y → ∀ p < l, ∀ g, InRange x.shape.tail g →
      ‖y.get (p :: g)‖ = ‖x.get (p :: g)‖) ∧
    (∀ x y, b.h = some x → b'.h = some y → ∀ p < l, ∀ q < l, ‖y.get [p, q]‖ = ‖x.get [p, q]‖) ∧
    ∀ x y, b.h = some x → b'.h = some y → ∀ p < l, y.get [p, p] = x.get [p, p] := by
  refine ⟨fun x y hx hy p hp q hq r hr s hs => ?_, fun x y hx hy i hi p hp q hq => ?_, fun x y hx hy p hp g hg => ?_,
    fun x y hx hy p hp q hq => ?_, fun x y hx hy p hp => ?_⟩
  · have h := P.u
    rw [hx, hy] at h
    rw [h.2 p hp q hq r hr s hs]
    simp [P.unit]
  · have h := P.dipole
    rw [hx, hy] at h
    rw [h.2 i hi p hp q hq]
    simp [P.unit]
  · have h := P.spf
    rw [hx, hy] at h
    rw [h.2 p hp g hg]
    simp [P.unit]
  · have h := P.h
    rw [hx, hy] at h
    rw [h.2 p hp q hq]
    simp [P.unit]
  · have h := P.h
    rw [hx, hy] at h
    rw [h.2 p hp p hp, conj_mul_self_of_unit (P.unit p), one_mul]

/-! ## Spin, energies -/

theorem split_two {l k : ℕ} (h : k < 2 * l) : ∃ p < l, ∃ a < 2, k = 2 * p + a :=
  ⟨k / 2, by omega, k % 2, by omega, by omega⟩

theorem half_phase (c : ℕ → ℂ) (p : ℕ) {a : ℕ} (h : a < 2) : (fun p => c (p / 2)) (2 * p + a) = c p := by
  show c ((2 * p + a) / 2) = c p
  congr 1
  omega

theorem optRel_trans {x y x' y' : Option (NDArray ℂ)} {R R' S : NDArray ℂ → NDArray ℂ → Prop} (h : OptRel R x y)
    (h1 : OptRel S x x') (h2 : OptRel S y y') (k : ∀ a b a' b', R a b → S a a' → S b b' → R' a' b') : OptRel R' x' y' := by
  cases x <;> cases y <;> cases x' <;> cases y' <;> simp only [OptRel] at h h1 h2 ⊢
  exact k _ _ _ _ h h1 h2

theorem doubled_one_phase {c : ℕ → ℂ} {l : ℕ} {a b a' b' : NDArray ℂ} (h : PhaseOne c l a b)
    (h1 : IsDoubledOneBody l l a a') (h2 : IsDoubledOneBody l l b b') : PhaseOne (fun p => c (p / 2)) (2 * l) a' b' := by
  refine ⟨h2.1.trans h1.1.symm, fun p hp q hq => ?_⟩
  obtain ⟨p, hp', i, hi, rfl⟩ := split_two hp
  obtain ⟨q, hq', j, hj, rfl⟩ := split_two hq
  rw [h1.2 p hp' q hq' i hi j hj, h2.2 p hp' q hq' i hi j hj, half_phase c p hi, half_phase c q hj]
  split_ifs
  · exact h.2 p hp' q hq'
  · simp

/-- **C133** The relation survives the spin doubling (with or without anti-symmetrisation; each with any spin basis). -/
theorem C133_doubled {c : ℕ → ℂ} {l : ℕ} {b b' d d' : BasisSet ℂ} (P : UpToPhases c l b b') (hb : WellFormed b l)
    (hb' : WellFormed b' l) (hsp : b.includesSpin = false) {a₀ a₁ b₀ b₁ a₀' a₁' b₀' b₁' : ℂ} {r r' anti : Bool}
    (run : (changeToGeneralBase [a₀, a₁] [b₀, b₁] anti).run b = (.ok r, d))
    (run' : (changeToGeneralBase [a₀', a₁'] [b₀', b₁'] anti).run b' = (.ok r', d')) :
    UpToPhases (fun p => c (p / 2)) (2 * l) d d' := by
  obtain ⟨e1, e2, e3, e4⟩ := P.rest
  obtain ⟨-, G, -, -⟩ := C16_general hb hsp run
  obtain ⟨-, G', -, -⟩ := C16_general hb' (e3.trans hsp) run'
  refine ⟨fun p => P.unit _, by rw [G.size, G'.size], by rw [G.rest.2.2.1, G'.rest.2.2.1, P.dim], ?_, ?_, ?_, ?_, ?_, ?_, ?_, ?_, ?_⟩
  · exact optRel_trans P.h G.h G'.h fun a b a' b' => doubled_one_phase
  · exact optRel_trans P.s G.s G'.s fun a b a' b' => doubled_one_phase
  · have g := G.u
    have g' := G'.u
    rw [e4] at g'
    split_ifs at g g'
    · refine optRel_trans P.u g g' fun a b a' b' h h1 h2 => ⟨h2.1.trans h1.1.symm, fun p hp q hq r hr s hs => ?_⟩
      obtain ⟨p, hp', i, hi, rfl⟩ := split_two hp
      obtain ⟨q, hq', j, hj, rfl⟩ := split_two hq
      obtain ⟨r, hr', k, hk, rfl⟩ := split_two hr
      obtain ⟨s, hs', m, hm, rfl⟩ := split_two hs
      rw [h1.2 p hp' q hq' r hr' s hs' i hi j hj k hk m hm, h2.2 p hp' q hq' r hr' s hs' i hi j hj k hk m hm, half_phase c p hi,
        half_phase c q hj, half_phase c r hk, half_phase c s hm, h.2 p hp' q hq' r hr' s hs', h.2 p hp' q hq' s hs' r hr']
      split_ifs <;> ring
    · refine optRel_trans P.u g g' fun a b a' b' h h1 h2 => ⟨h2.1.trans h1.1.symm, fun p hp q hq r hr s hs => ?_⟩
      obtain ⟨p, hp', i, hi, rfl⟩ := split_two hp
      obtain ⟨q, hq', j, hj, rfl⟩ := split_two hq
      obtain ⟨r, hr', k, hk, rfl⟩ := split_two hr
      obtain ⟨s, hs', m, hm, rfl⟩ := split_two hs
      rw [h1.2 p hp' q hq' r hr' s hs' i hi j hj k hk m hm, h2.2 p hp' q hq' r hr' s hs' i hi j hj k hk m hm, half_phase c p hi,
        half_phase c q hj, half_phase c r hk, half_phase c s hm, h.2 p hp' q hq' r hr' s hs']
      split_ifs <;> ring
  · have g' := G'.dipole
    rw [P.dim] at g'
    rw [G.rest.2.2.1]
    refine optRel_trans P.dipole G.dipole g' fun a b a' b' h h1 h2 => ⟨h2.1.trans h1.1.symm, fun t ht p hp q hq => ?_⟩
    obtain ⟨p, hp', i, hi, rfl⟩ := split_two hp
    obtain ⟨q, hq', j, hj, rfl⟩ := split_two hq
    rw [h1.2 t ht p hp' q hq' i hi j hj, h2.2 t ht p hp' q hq' i hi j hj, half_phase c p hi, half_phase c q hj]
    split_ifs
    · exact h.2 t ht p hp' q hq'
    · simp
  · refine optRel_trans P.spf G.spf G'.spf fun a b a' b' h h1 h2 => ⟨by rw [h2.1, h1.1, h.1], fun p hp g hg => ?_⟩
    rw [h1.1, List.tail_cons] at hg
    obtain ⟨p, hp', i, hi, rfl⟩ := split_two hp
    rw [h1.2 p hp' i hi g hg, h2.2 p hp' i hi g (by rw [h.1]; exact hg), half_phase c p hi]
    exact h.2 p hp' g hg
  · rw [G.rest.1, G'.rest.1, e1]
  · rw [G.rest.2.2.2, G'.rest.2.2.2, e2]
  · rw [G.spin, G'.spin]
  · rw [G.antiSym, G'.antiSym, e4]

/-- **C133** Systems of the same class with the same number of particles on two such basis sets have the same reference
energy; their Fock matrices are those of one operator. -/
theorem C133_system {T : Type} {c : ℕ → ℂ} {w w' : World ℂ T} {s s' : ℕ} {x x' : Sys} {b b' : BasisSet ℂ} (ok : SysOK w s x b)
    (ok' : SysOK w' s' x' b') (hk : x'.kind = x.kind) (hn : x'.n = x.n) (P : UpToPhases c x.l b b') :
    (∃ r r', (World.referenceEnergy s).run w = (.ok r, w) ∧ (World.referenceEnergy s').run w' = (.ok r', w') ∧
      r'.get [] = r.get []) ∧
    ∀ {m m₁ m' m₁' : Mem ℂ} {h u t h' u' t' : ℕ}, m[h]? = b.h → m[u]? = b.u → m'[h']? = b'.h → m'[u']? = b'.u →
      (World.constructFock x h u none).run m = (.ok t, m₁) → (World.constructFock x' h' u' none).run m' = (.ok t', m₁') →
      ∃ F F', m₁[t]? = some F ∧ m₁'[t']? = some F' ∧ PhaseOne c x.l F F' := by
  have hl : x'.l = x.l := by rw [← ok.wf.l_eq, ← ok'.wf.l_eq, P.size]
  obtain ⟨H, hh, sh⟩ := ok.wf.h
  obtain ⟨U, hu, su⟩ := ok.wf.u
  obtain ⟨H', hh', sh'⟩ := ok'.wf.h
  obtain ⟨U', hu', su'⟩ := ok'.wf.u
  have PH := P.h
  have PU := P.u
  rw [hh, hh'] at PH
  rw [hu, hu'] at PU
  have le := ok.size.le
  have c1 : ∀ p, (starRingEnd ℂ) (c p) * c p = 1 := fun p => conj_mul_self_of_unit (P.unit p)
  constructor
  · obtain ⟨r, h1, -, h2⟩ := World.referenceEnergy_run ok hh hu
    obtain ⟨r', h1', -, h2'⟩ := World.referenceEnergy_run ok' hh' hu'
    refine ⟨r, r', h1, h1', ?_⟩
    rw [h2, h2', hk, hn]
    have e1 : ∀ i ∈ range x.n, H'.get [i, i] = H.get [i, i] := fun i hi => by
      have := mem_range.1 hi
      rw [PH.2 i (by omega) i (by omega), c1, one_mul]
    have e2 : ∀ i ∈ range x.n, ∀ j ∈ range x.n, U'.get [i, j, i, j] = U.get [i, j, i, j] := fun i hi j hj => by
      have := mem_range.1 hi
      have := mem_range.1 hj
      rw [PU.2 i (by omega) j (by omega) i (by omega) j (by omega), map_mul]
      linear_combination (U.get [i, j, i, j]) * (c1 i * ((starRingEnd ℂ) (c j) * c j) + c1 j)
    have e3 : ∀ i ∈ range x.n, ∀ j ∈ range x.n, U'.get [i, j, j, i] = U.get [i, j, j, i] := fun i hi j hj => by
      have := mem_range.1 hi
      have := mem_range.1 hj
      rw [PU.2 i (by omega) j (by omega) j (by omega) i (by omega), map_mul]
      linear_combination (U.get [i, j, j, i]) * (c1 i * ((starRingEnd ℂ) (c j) * c j) + c1 j)
    cases x.kind
    · show energyGeneral _ _ _ = energyGeneral _ _ _
      unfold energyGeneral
      rw [sum_congr rfl e1, sum_congr rfl fun i hi => sum_congr rfl (e2 i hi)]
    · show energySpatial _ _ _ = energySpatial _ _ _
      unfold energySpatial
      rw [sum_congr rfl e1, sum_congr rfl fun i hi => sum_congr rfl fun j hj => by rw [e2 i hi j hj, e3 i hi j hj]]
  · intro m m₁ m' m₁' h u t h' u' t' mh mu mh' mu' run run'
    obtain ⟨np, hnp⟩ := ok.wf.np
    obtain ⟨np', hnp'⟩ := ok'.wf.np
    obtain ⟨rfl, rfl⟩ := fock_inv (ok.np.trans hnp) ok.size.o ok.size.le (mh.trans hh) (mu.trans hu) sh su run
    obtain ⟨rfl, rfl⟩ := fock_inv (ok'.np.trans hnp') ok'.size.o ok'.size.le (mh'.trans hh') (mu'.trans hu') sh' su' run'
    refine ⟨_, _, List.getElem?_concat_length, List.getElem?_concat_length, ?_, fun p hp q hq => ?_⟩
    · show [x'.l, x'.l] = [x.l, x.l]
      rw [hl]
    · rw [fockArr, fockArr, ofFn_get_of (by rw [hl]; exact ⟨hp, hq, trivial⟩), ofFn_get_of (by exact ⟨hp, hq, trivial⟩), hk, hn]
      simp only [List.getD_cons_zero, List.getD_cons_succ]
      have e2 : ∀ i ∈ range x.n, U'.get [p, i, q, i] = (starRingEnd ℂ) (c p) * c q * U.get [p, i, q, i] := fun i hi => by
        have := mem_range.1 hi
        rw [PU.2 p hp i (by omega) q hq i (by omega), map_mul]
        linear_combination ((starRingEnd ℂ) (c p) * c q * U.get [p, i, q, i]) * c1 i
      have e3 : ∀ i ∈ range x.n, U'.get [p, i, i, q] = (starRingEnd ℂ) (c p) * c q * U.get [p, i, i, q] := fun i hi => by
        have := mem_range.1 hi
        rw [PU.2 p hp i (by omega) i (by omega) q hq, map_mul]
        linear_combination ((starRingEnd ℂ) (c p) * c q * U.get [p, i, i, q]) * c1 i
      cases x.kind
      · show fockGeneralAt _ _ _ _ _ = _ * fockGeneralAt _ _ _ _ _
        unfold fockGeneralAt
        rw [PH.2 p hp q hq, sum_congr rfl e2, ← mul_sum, mul_add]
      · show fockSpatialAt _ _ _ _ _ = _ * fockSpatialAt _ _ _ _ _
        unfold fockSpatialAt
        rw [PH.2 p hp q hq, mul_add, mul_sum]
        congr 1
        exact sum_congr rfl fun i hi => by rw [e2 i hi, e3 i hi]; ring

/-- **C133** The exact energies of `N` electrons with spin from the elements of the two basis sets agree. -/
theorem C133_electrons {c : ℕ → ℂ} {l N : ℕ} {b b' : BasisSet ℂ} (P : UpToPhases c l b b') {H U H' U' : NDArray ℂ}
    (hh : b.h = some H) (hu : b.u = some U) (hh' : b'.h = some H') (hu' : b'.u = some U') {E E' : ℕ → ℝ}
    (S : ElectronEnergies l H U N E) (S' : ElectronEnergies l H' U' N E') : ∀ k < (2 * l).choose N, E' k = E k := by
  intro k hk
  have PH := P.h
  have PU := P.u
  rw [hh, hh'] at PH
  rw [hu, hu'] at PU
  have := electron_near S' S (θ := c) P.unit (le_refl 0) (le_refl 0)
    (fun p hp q hq => by rw [PH.2 p hp q hq, sub_self, norm_zero])
    (fun p hp q hq r hr s hs => by rw [PU.2 p hp q hq r hr s hs, sub_self, norm_zero]) hk
  rw [mul_zero, mul_zero, add_zero] at this
  linarith [abs_nonpos_iff.1 this]

/-! ## Changing to a basis of eigenvectors -/

theorem densityEnergy_congr {k : SysKind} {l : ℕ} {D D' : ℕ → ℕ → ℂ} {h u : NDArray ℂ}
    (e : ∀ a < l, ∀ b < l, D a b = D' a b) : densityEnergy k l D h u = densityEnergy k l D' h u := by
  have e' : ∀ {a b}, a ∈ range l → b ∈ range l → D a b = D' a b := fun ha hb => e _ (mem_range.1 ha) _ (mem_range.1 hb)
  have one : ∑ a ∈ range l, ∑ b ∈ range l, D b a * h.get [a, b] = ∑ a ∈ range l, ∑ b ∈ range l, D' b a * h.get [a, b] :=
    sum_congr rfl fun a ha => sum_congr rfl fun b hb => by rw [e' hb ha]
  cases k
  · simp only [densityEnergy, one]
    congr 2
    exact sum_congr rfl fun a ha => sum_congr rfl fun b hb => sum_congr rfl fun c hc => sum_congr rfl fun d hd => by
      rw [e' hc ha, e' hd hb]
  · simp only [densityEnergy, one]
    congr 1
    exact sum_congr rfl fun a ha => sum_congr rfl fun b hb => sum_congr rfl fun c hc => sum_congr rfl fun d hd => by
      rw [e' hc ha, e' hd hb, e' hd ha, e' hc hb]

theorem densityFock_congr {k : SysKind} {l : ℕ} {D D' : ℕ → ℕ → ℂ} {h u : NDArray ℂ}
    (e : ∀ a < l, ∀ b < l, D a b = D' a b) (a b : ℕ) : densityFock k l D h u a b = densityFock k l D' h u a b := by
  have e' : ∀ {a b}, a ∈ range l → b ∈ range l → D a b = D' a b := fun ha hb => e _ (mem_range.1 ha) _ (mem_range.1 hb)
  cases k
  · simp only [densityFock]
    congr 1
    exact sum_congr rfl fun c hc => sum_congr rfl fun d hd => by rw [e' hd hc]
  · simp only [densityFock]
    congr 1
    exact sum_congr rfl fun c hc => sum_congr rfl fun d hd => by rw [e' hd hc]

/-- Two basis changes with the same density matrix of the occupied orbitals. -/
theorem same_density {T : Type} {w w₁ w₂ : World ℂ T} {s : ℕ} {x : Sys} {b : BasisSet ℂ} {C C' : NDArray ℂ} {v₁ v₂ : Unit}
    (ok : SysOK w s x b) (run : (World.changeBasis s C none).run w = (.ok v₁, w₁))
    (run' : (World.changeBasis s C' none).run w = (.ok v₂, w₂))
    (hD : ∀ a < x.l, ∀ c < x.l, ∑ i ∈ range x.n, C'.get [a, i] * (starRingEnd ℂ) (C'.get [c, i])
      = ∑ i ∈ range x.n, C.get [a, i] * (starRingEnd ℂ) (C.get [c, i])) :
    (∃ r r', (World.referenceEnergy s).run w₁ = (.ok r, w₁) ∧ (World.referenceEnergy s).run w₂ = (.ok r', w₂) ∧
      r'.get [] = r.get []) ∧
    ∃ f : ℕ → ℕ → ℂ, ∀ (A : NDArray ℂ) (wA : World ℂ T), (A = C ∧ wA = w₁ ∨ A = C' ∧ wA = w₂) →
      ∀ {x' : Sys} {b' : BasisSet ℂ}, wA.systems[s]? = some x' → wA.bases[x'.basis]? = some b' →
      ∀ {m m' : Mem ℂ} {h u t : ℕ}, m[h]? = b'.h → m[u]? = b'.u →
      (World.constructFock x' h u none).run m = (.ok t, m') →
      ∃ F, m'[t]? = some F ∧ F.shape = [x'.l, x'.l] ∧ ∀ p < x'.l, ∀ q < x'.l, F.get [p, q] =
        ∑ a ∈ range x.l, ∑ c ∈ range x.l, (starRingEnd ℂ) (A.get [a, p]) * f a c * A.get [c, q] := by
  obtain ⟨H, hh, sh⟩ := ok.wf.h
  obtain ⟨U, hu, su⟩ := ok.wf.u
  obtain ⟨n, hC, -, -, -⟩ := World.changeBasis_ok ok run
  obtain ⟨n', hC', -, -, -⟩ := World.changeBasis_ok ok run'
  have e : ∀ a < x.l, ∀ c < x.l, occDensity x.n C' (Option.getD none C'.conj.T) a c
      = occDensity x.n C (Option.getD none C.conj.T) a c := fun a ha c hc => by
    simp only [occDensity, Option.getD_none, conjT_get2 C hC, conjT_get2 C' hC']
    exact hD a ha c hc
  constructor
  · obtain ⟨r, h1, -, h2⟩ := C90_energy ok run hh hu
    obtain ⟨r', h1', -, h2'⟩ := C90_energy ok run' hh hu
    exact ⟨r, r', h1, h1', by rw [h2, h2']; exact densityEnergy_congr e⟩
  · refine ⟨densityFock x.kind x.l (occDensity x.n C (Option.getD none C.conj.T)) H U, ?_⟩
    rintro A wA (⟨rfl, rfl⟩ | ⟨rfl, rfl⟩) x' b' hx' hb' m m' h u t mh mu frun
    · obtain ⟨F, h1, h2, h3⟩ := C90_fock ok run hh hu hx' hb' mh mu frun
      refine ⟨F, h1, h2, fun p hp q hq => ?_⟩
      rw [h3 p hp q hq]
      simp only [Option.getD_none, conjT_get2 A hC]
      rfl
    · obtain ⟨F, h1, h2, h3⟩ := C90_fock ok run' hh hu hx' hb' mh mu frun
      refine ⟨F, h1, h2, fun p hp q hq => ?_⟩
      rw [h3 p hp q hq]
      refine sum_congr rfl fun a _ => sum_congr rfl fun c _ => ?_
      rw [densityFock_congr e]
      simp only [Option.getD_none, conjT_get2 A hC']
      rfl

/-- **C133** `change_basis` to the lowest eigenvectors of any matrix (e.g. of `h` or of a Fock matrix): if the last
occupied and the first empty eigenvalue differ, the reference energy does not depend on which eigenvectors were returned,
and the Fock matrix is that of one operator `f`. -/
theorem C133_reference {T : Type} {w w₁ w₂ : World ℂ T} {s : ℕ} {x : Sys} {b : BasisSet ℂ} {C C' : NDArray ℂ} {v₁ v₂ : Unit}
    (ok : SysOK w s x b) (run : (World.changeBasis s C none).run w = (.ok v₁, w₁))
    (run' : (World.changeBasis s C' none).run w = (.ok v₂, w₂)) {M e v e' v' : NDArray ℂ} (F : EighOK x.l M e v)
    (F' : EighOK x.l M e' v') (hC : ∀ a < x.l, ∀ i < x.n, C.get [a, i] = v.get [a, i])
    (hC' : ∀ a < x.l, ∀ i < x.n, C'.get [a, i] = v'.get [a, i])
    (gap : ∀ i < x.n, ∀ j < x.l, x.n ≤ j → e.get [i] ≠ e.get [j]) :
    (∃ r r', (World.referenceEnergy s).run w₁ = (.ok r, w₁) ∧ (World.referenceEnergy s).run w₂ = (.ok r', w₂) ∧
      r'.get [] = r.get []) ∧
    ∃ f : ℕ → ℕ → ℂ, ∀ (A : NDArray ℂ) (wA : World ℂ T), (A = C ∧ wA = w₁ ∨ A = C' ∧ wA = w₂) →
      ∀ {x' : Sys} {b' : BasisSet ℂ}, wA.systems[s]? = some x' → wA.bases[x'.basis]? = some b' →
      ∀ {m m' : Mem ℂ} {h u t : ℕ}, m[h]? = b'.h → m[u]? = b'.u →
      (World.constructFock x' h u none).run m = (.ok t, m') →
      ∃ F, m'[t]? = some F ∧ F.shape = [x'.l, x'.l] ∧ ∀ p < x'.l, ∀ q < x'.l, F.get [p, q] =
        ∑ a ∈ range x.l, ∑ c ∈ range x.l, (starRingEnd ℂ) (A.get [a, p]) * f a c * A.get [c, q] := by
  refine same_density ok run run' fun a ha c hc => ?_
  have e1 : ∑ i ∈ range x.n, C'.get [a, i] * (starRingEnd ℂ) (C'.get [c, i])
      = ∑ i ∈ range x.n, v'.get [a, i] * (starRingEnd ℂ) (v'.get [c, i]) := sum_congr rfl fun i hi => by
    rw [hC' a ha i (mem_range.1 hi), hC' c hc i (mem_range.1 hi)]
  have e2 : ∑ i ∈ range x.n, C.get [a, i] * (starRingEnd ℂ) (C.get [c, i])
      = ∑ i ∈ range x.n, v.get [a, i] * (starRingEnd ℂ) (v.get [c, i]) := sum_congr rfl fun i hi => by
    rw [hC a ha i (mem_range.1 hi), hC c hc i (mem_range.1 hi)]
  rw [e1, e2]
  have le := ok.size.le
  refine projection_unique F F' le (fun i hi j hj hij => ?_) ha hc
  rw [← eigh_unique F F' hj, ← eigh_unique F F' (show i < x.l by omega)]
  exact ⟨gap i hi j hj hij, (gap i hi j hj hij).symm⟩

theorem sum_pairs (m : ℕ) (g : ℕ → ℂ) : ∑ i ∈ range (2 * m), g i = ∑ i ∈ range m, (g (2 * i) + g (2 * i + 1)) := by
  induction m with
  | zero => simp
  | succ m ih => rw [show 2 * (m + 1) = 2 * m + 1 + 1 by ring, sum_range_succ, sum_range_succ, ih, sum_range_succ, add_assoc]

/-- **C133** The same for `2 m` particles in spin orbitals, with `C = add_spin_one_body(v)` from the eigenvectors of a
spatial matrix. -/
theorem C133_reference_spin {T : Type} {w w₁ w₂ : World ℂ T} {s l m : ℕ} {x : Sys} {b : BasisSet ℂ} {C C' : NDArray ℂ}
    {v₁ v₂ : Unit} (ok : SysOK w s x b) (hl : x.l = 2 * l) (hn : x.n = 2 * m)
    (run : (World.changeBasis s C none).run w = (.ok v₁, w₁)) (run' : (World.changeBasis s C' none).run w = (.ok v₂, w₂))
    {M e v e' v' : NDArray ℂ} (F : EighOK l M e v) (F' : EighOK l M e' v') (hC : IsDoubledOneBody l l v C)
    (hC' : IsDoubledOneBody l l v' C') (gap : ∀ i < m, ∀ j < l, m ≤ j → e.get [i] ≠ e.get [j]) :
    ∃ r r', (World.referenceEnergy s).run w₁ = (.ok r, w₁) ∧ (World.referenceEnergy s).run w₂ = (.ok r', w₂) ∧
      r'.get [] = r.get [] := by
  have le := ok.size.le
  have hm : m ≤ l := by omega
  refine (same_density ok run run' fun a ha c hc => ?_).1
  rw [hl] at ha hc
  obtain ⟨a, ha', i, hi, rfl⟩ := split_two ha
  obtain ⟨c, hc', j, hj, rfl⟩ := split_two hc
  have key : ∀ {v C : NDArray ℂ}, IsDoubledOneBody l l v C →
      ∑ k ∈ range x.n, C.get [2 * a + i, k] * (starRingEnd ℂ) (C.get [2 * c + j, k])
        = if i = j then ∑ k ∈ range m, v.get [a, k] * (starRingEnd ℂ) (v.get [c, k]) else 0 := by
    intro v C hC
    rw [hn, sum_pairs]
    have : ∀ k ∈ range m, C.get [2 * a + i, 2 * k] * (starRingEnd ℂ) (C.get [2 * c + j, 2 * k])
        + C.get [2 * a + i, 2 * k + 1] * (starRingEnd ℂ) (C.get [2 * c + j, 2 * k + 1])
        = if i = j then v.get [a, k] * (starRingEnd ℂ) (v.get [c, k]) else 0 := by
      intro k hk
      have hk := mem_range.1 hk
      have z : ∀ {a i}, a < l → i < 2 → C.get [2 * a + i, 2 * k] = if i = 0 then v.get [a, k] else 0 := fun ha hi =>
        hC.2 _ ha k (by omega) _ hi 0 (by norm_num)
      have o : ∀ {a i}, a < l → i < 2 → C.get [2 * a + i, 2 * k + 1] = if i = 1 then v.get [a, k] else 0 := fun ha hi =>
        hC.2 _ ha k (by omega) _ hi 1 (by norm_num)
      rw [z ha' hi, z hc' hj, o ha' hi, o hc' hj]
      interval_cases i <;> interval_cases j <;> simp
    rw [sum_congr rfl this]
    split_ifs
    · rfl
    · exact sum_const_zero
  rw [key hC, key hC']
  split_ifs
  · refine projection_unique F F' hm (fun i hi j hj hij => ?_) ha' hc'
    rw [← eigh_unique F F' hj, ← eigh_unique F F' (show i < l by omega)]
    exact ⟨gap i hi j hj hij, (gap i hi j hj hij).symm⟩
  · rfl

/-! ## The gap is needed -/

/-- Two degenerate orbitals. -/
noncomputable def degenerate : BasisSet ℂ :=
  { BasisSet.init 2 1 with
    h := some (eye 2), s := some (eye 2),
    u := some (ofFn .float64 [2, 2, 2, 2] fun i => if i = [0, 0, 0, 0] then 1 else 0) }

/-- Two particles in them. -/
noncomputable def degenerateWorld : World ℂ ℤ := { bases := [degenerate], systems := [Demo.sys], ops := [] }

theorem degenerate_wf : WellFormed degenerate 2 := by
  constructor
  · rfl
  · exact ⟨0, rfl⟩
  · exact ⟨_, rfl, rfl⟩
  · exact ⟨_, rfl, rfl⟩
  · rintro x ⟨⟩; rfl
  · rintro x ⟨⟩
  · rintro x ⟨⟩
  · rintro x ⟨⟩
  · intro _; rfl
  · rintro x ⟨⟩

theorem degenerateWorld_ok : SysOK degenerateWorld 0 Demo.sys degenerate :=
  ⟨rfl, rfl, degenerate_wf, rfl, by decide, rfl, rfl, rfl⟩

/-- A rotation of the two orbitals. -/
noncomputable def turned : NDArray ℂ := ofFn .float64 [2, 2] fun i =>
  if i = [0, 0] then 3 / 5 else if i = [0, 1] then -4 / 5 else if i = [1, 0] then 4 / 5 else 3 / 5

theorem turned_get : turned.get [0, 0] = 3 / 5 ∧ turned.get [0, 1] = -4 / 5 ∧ turned.get [1, 0] = 4 / 5 ∧
    turned.get [1, 1] = 3 / 5 := by
  unfold turned
  refine ⟨?_, ?_, ?_, ?_⟩ <;> rw [ofFn_get_of (by simp [InRange])] <;> simp

/-- Two results for the unit matrix that both keep what `eigh` promises. -/
theorem degenerate_eigh : EighOK 2 (eye 2) (ofFn .float64 [2] fun _ => 1) (eye 2) ∧
    EighOK 2 (eye 2) (ofFn .float64 [2] fun _ => 1) turned := by
  have e00 : (eye (K := ℂ) 2).get [0, 0] = 1 := by rw [eye_get 2 0 0 (by norm_num)]; rfl
  have e01 : (eye (K := ℂ) 2).get [0, 1] = 0 := by rw [eye_get 2 0 1 (by norm_num)]; rfl
  have e10 : (eye (K := ℂ) 2).get [1, 0] = 0 := by rw [eye_get 2 1 0 (by norm_num)]; rfl
  have e11 : (eye (K := ℂ) 2).get [1, 1] = 1 := by rw [eye_get 2 1 1 (by norm_num)]; rfl
  have w : ∀ i < 2, (ofFn (K := ℂ) .float64 [2] fun _ => 1).get [i] = 1 := fun i hi =>
    ofFn_get_of (by exact ⟨hi, trivial⟩)
  have re : ∀ i, ((ofFn (K := ℂ) .float64 [2] fun _ => 1).get i).im = 0 := fun i => by
    rw [ofFn_get]; split_ifs <;> simp
  obtain ⟨r00, r01, r10, r11⟩ := turned_get
  refine ⟨⟨rfl, rfl, re, fun i j hij hj => ?_, fun i j hi hj => ?_, fun i j hi hj => ?_⟩,
    ⟨rfl, rfl, re, fun i j hij hj => ?_, fun i j hi hj => ?_, fun i j hi hj => ?_⟩⟩
  · rw [w i (by omega), w j hj]
  · simp only [sum_range_succ, sum_range_zero, zero_add]
    interval_cases i <;> interval_cases j <;> simp [e00, e01, e10, e11]
  · rw [w i hi]
    simp only [sum_range_succ, sum_range_zero, zero_add]
    interval_cases i <;> interval_cases j <;> simp [e00, e01, e10, e11]
  · rw [w i (by omega), w j hj]
  · simp only [sum_range_succ, sum_range_zero, zero_add]
    interval_cases i <;> interval_cases j <;> simp [r00, r01, r10, r11, map_ofNat (starRingEnd ℂ)] <;> norm_num
  · rw [w i hi]
    simp only [sum_range_succ, sum_range_zero, zero_add]
    interval_cases i <;> interval_cases j <;> simp [e00, e01, e10, e11, r00, r01, r10, r11]

/-- **C133** With a degenerate level that is only partly occupied the reference energy depends on the choice: `3` with one
pair of eigenvectors of the unit matrix, `2 + 81 / 625` with another. -/
theorem C133_open :
    ∃ (w₁ w₂ : World ℂ ℤ) (r r' : NDArray ℂ), EighOK 2 (eye 2) (ofFn .float64 [2] fun _ => 1) (eye 2) ∧
      EighOK 2 (eye 2) (ofFn .float64 [2] fun _ => 1) turned ∧
      (World.changeBasis 0 (eye 2) none).run degenerateWorld = (.ok (), w₁) ∧
      (World.changeBasis 0 turned none).run degenerateWorld = (.ok (), w₂) ∧
      (World.referenceEnergy 0).run w₁ = (.ok r, w₁) ∧ (World.referenceEnergy 0).run w₂ = (.ok r', w₂) ∧
      r.get [] = 3 ∧ r'.get [] = 2 + 81 / 625 := by
  have ok := degenerateWorld_ok
  have sp : SpinShaped degenerate 2 := ⟨by rintro x ⟨⟩, by rintro x ⟨⟩, by rintro x ⟨⟩, by rintro x ⟨⟩⟩
  have run1 := World.changeBasis_sys_run (C := eye 2) (Ct := none) (n := 2) ok sp rfl
    (conjT_shape (m := 2) (n := 2) rfl) (by decide)
  have run2 := World.changeBasis_sys_run (C := turned) (Ct := none) (n := 2) ok sp rfl
    (conjT_shape (m := 2) (n := 2) rfl) (by decide)
  obtain ⟨r, h1, -, h2⟩ := C90_energy ok run1 rfl rfl
  obtain ⟨r', h1', -, h2'⟩ := C90_energy ok run2 rfl rfl
  have e00 : (eye (K := ℂ) 2).get [0, 0] = 1 := by rw [eye_get 2 0 0 (by norm_num)]; rfl
  have e01 : (eye (K := ℂ) 2).get [0, 1] = 0 := by rw [eye_get 2 0 1 (by norm_num)]; rfl
  have e10 : (eye (K := ℂ) 2).get [1, 0] = 0 := by rw [eye_get 2 1 0 (by norm_num)]; rfl
  have e11 : (eye (K := ℂ) 2).get [1, 1] = 1 := by rw [eye_get 2 1 1 (by norm_num)]; rfl
  obtain ⟨r00, r01, r10, r11⟩ := turned_get
  have hU : ∀ p < 2, ∀ q < 2, ∀ a < 2, ∀ b < 2, (ofFn (K := ℂ) .float64 [2, 2, 2, 2] fun i =>
      if i = [0, 0, 0, 0] then 1 else 0).get [p, q, a, b] = if p = 0 ∧ q = 0 ∧ a = 0 ∧ b = 0 then 1 else 0 :=
    fun p hp q hq a ha b hb => by
    rw [ofFn_get_of (by exact ⟨hp, hq, ha, hb, trivial⟩)]
    simp
  refine ⟨_, _, r, r', degenerate_eigh.1, degenerate_eigh.2, run1, run2, h1, h1', ?_, ?_⟩
  · rw [h2]
    show densityEnergy .spatial 2 (occDensity 1 (eye 2) (eye 2).conj.T) _ _ = _
    simp only [densityEnergy, occDensity, sum_range_succ, sum_range_zero, zero_add, conjT_get2 (eye (K := ℂ) 2) rfl,
      e00, e01, e10, e11]
    simp [hU]
    norm_num
  · rw [h2']
    show densityEnergy .spatial 2 (occDensity 1 turned turned.conj.T) _ _ = _
    simp only [densityEnergy, occDensity, sum_range_succ, sum_range_zero, zero_add, conjT_get2 turned rfl,
      e00, e01, e10, e11, r00, r10]
    simp [hU]
    norm_num

/-! ## Examples -/

/-- A dot with two solvers, the second of which returns the first one's vectors times `i`: the dipole elements agree up to
phases. -/
example : ∃ eigh eigh', IsEigh eigh ∧ IsEigh eigh' ∧ ∃ b b' c, odqd eigh 3 8 401 (1 / 4) 1 0 (fun x => x ^ 2 / 2) = .ok b ∧
    odqd eigh' 3 8 401 (1 / 4) 1 0 (fun x => x ^ 2 / 2) = .ok b' ∧ b'.h = b.h ∧ b'.s = b.s ∧ UpToPhases c 3 b b' := by
  obtain ⟨eigh, he⟩ := isEigh_exists
  have he' : IsEigh fun h => (eigh h).map fun x => (x.1, NDArray.smul .complex128 Complex.I x.2) := by
    intro n h hs hh
    obtain ⟨w, v, e, F⟩ := he n h hs hh
    refine ⟨w, NDArray.smul .complex128 Complex.I v, by simp only [e]; rfl, F.w_shape, F.v_shape, F.real, F.sorted,
      fun i j hi hj => ?_, fun i j hi hj => ?_⟩
    · rw [← F.orthonormal i j hi hj]
      refine sum_congr rfl fun k _ => ?_
      rw [NDArray.smul_get, NDArray.smul_get, map_mul, Complex.conj_I]
      linear_combination (-((starRingEnd ℂ) (v.get [k, i]) * v.get [k, j])) * Complex.I_mul_I
    · rw [NDArray.smul_get, mul_left_comm, ← F.eigen i j hi hj, mul_sum]
      refine sum_congr rfl fun k _ => ?_
      rw [NDArray.smul_get]
      ring
  exact ⟨eigh, _, he, he', C133_odqd he he' (by norm_num) (by norm_num) (by norm_num) _ _ _ _ _ _ _ _⟩

/-- Changing to the eigenvectors `1` or to `-1, -1` of a matrix with the eigenvalues 0 and 1. -/
example : ∃ (w₁ w₂ : World ℂ ℤ) (r r' : NDArray ℂ),
    (World.changeBasis 0 (eye 2) none).run degenerateWorld = (.ok (), w₁) ∧
    (World.changeBasis 0 (NDArray.smul .float64 (-1) (eye 2)) none).run degenerateWorld = (.ok (), w₂) ∧
    (World.referenceEnergy 0).run w₁ = (.ok r, w₁) ∧ (World.referenceEnergy 0).run w₂ = (.ok r', w₂) ∧
    r'.get [] = r.get [] := by
  have ok := degenerateWorld_ok
  have sp : SpinShaped degenerate 2 := ⟨by rintro x ⟨⟩, by rintro x ⟨⟩, by rintro x ⟨⟩, by rintro x ⟨⟩⟩
  have run1 := World.changeBasis_sys_run (C := eye 2) (Ct := none) (n := 2) ok sp rfl
    (conjT_shape (m := 2) (n := 2) rfl) (by decide)
  have run2 := World.changeBasis_sys_run (C := NDArray.smul .float64 (-1) (eye 2)) (Ct := none) (n := 2) ok sp rfl
    (conjT_shape (m := 2) (n := 2) rfl) (by decide)
  have e00 : (eye (K := ℂ) 2).get [0, 0] = 1 := by rw [eye_get 2 0 0 (by norm_num)]; rfl
  have e01 : (eye (K := ℂ) 2).get [0, 1] = 0 := by rw [eye_get 2 0 1 (by norm_num)]; rfl
  have e10 : (eye (K := ℂ) 2).get [1, 0] = 0 := by rw [eye_get 2 1 0 (by norm_num)]; rfl
  have e11 : (eye (K := ℂ) 2).get [1, 1] = 1 := by rw [eye_get 2 1 1 (by norm_num)]; rfl
  have ew : ∀ i < 2, (ofFn (K := ℂ) .float64 [2] fun i => if i = [1] then 1 else 0).get [i] = if i = 1 then 1 else 0 :=
    fun i hi => by rw [ofFn_get_of (by exact ⟨hi, trivial⟩)]; simp
  have eM : ∀ i < 2, ∀ j < 2, (ofFn (K := ℂ) .float64 [2, 2] fun i => if i = [1, 1] then 1 else 0).get [i, j]
      = if i = 1 ∧ j = 1 then 1 else 0 := fun i hi j hj => by rw [ofFn_get_of (by exact ⟨hi, hj, trivial⟩)]; simp
  have F : ∀ c : ℂ, (starRingEnd ℂ) c * c = 1 → EighOK 2 (ofFn .float64 [2, 2] fun i => if i = [1, 1] then 1 else 0)
      (ofFn .float64 [2] fun i => if i = [1] then 1 else 0) (NDArray.smul .float64 c (eye 2)) := fun c hc =>
    ⟨rfl, rfl, fun i => by rw [ofFn_get]; split_ifs <;> simp,
    fun i j hij hj => by
      rw [ew i (by omega), ew j hj]
      interval_cases j <;> interval_cases i <;> simp,
    fun i j hi hj => by
      simp only [sum_range_succ, sum_range_zero, zero_add, NDArray.smul_get]
      interval_cases i <;> interval_cases j <;> simp [e00, e01, e10, e11, hc],
    fun i j hi hj => by
      rw [ew i hi]
      simp only [sum_range_succ, sum_range_zero, zero_add, NDArray.smul_get]
      rw [eM j hj 0 (by norm_num), eM j hj 1 (by norm_num)]
      interval_cases i <;> interval_cases j <;> simp [e00, e01, e10, e11]⟩
  obtain ⟨⟨r, r', h1, h2, h3⟩, -⟩ := C133_reference ok run1 run2 (F 1 (by simp)) (F (-1) (by simp))
    (fun a _ i _ => by rw [NDArray.smul_get, one_mul]) (fun a _ i _ => rfl) (fun i hi j hj hij => by
      have hi : i < 1 := hi
      have hij : 1 ≤ j := hij
      have hj : j < 2 := hj
      rw [ew i (by omega), ew j hj]
      interval_cases i
      interval_cases j
      simp)
  exact ⟨_, _, r, r', run1, run2, h1, h2, h3⟩

end QS.Props
