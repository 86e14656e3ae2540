import Verif.Model.Magnetic
import Verif.Lemmas.Tdho
import Verif.Lemmas.Indices
import Mathlib.Data.List.ProdSigma
import Mathlib.Data.List.Sort
import Mathlib.Algebra.Order.Floor.Ring

/-!
# The sorted states of the oscillator in a magnetic field
-/

namespace QS.TwoDim

open NDArray Idx PyM BasisSet

/-- The sorting order. -/
def RowLe (a b : Row) : Prop := a.E < b.E ∨ a.E = b.E ∧ a.m ≤ b.m

theorem rowLe_trans {a b c : Row} (h1 : RowLe a b) (h2 : RowLe b c) : RowLe a c := by
  rcases h1 with h1 | ⟨h1, h1'⟩ <;> rcases h2 with h2 | ⟨h2, h2'⟩
  · exact .inl (h1.trans h2)
  · exact .inl (h2 ▸ h1)
  · exact .inl (h1 ▸ h2)
  · exact .inr ⟨h1.trans h2, h1'.trans h2'⟩

theorem rowLe_total (a b : Row) : RowLe a b ∨ RowLe b a := by
  rcases lt_trichotomy a.E b.E with h | h | h
  · exact .inl (.inl h)
  · rcases le_total a.m b.m with h' | h'
    · exact .inl (.inr ⟨h, h'⟩)
    · exact .inr (.inr ⟨h.symm, h'⟩)
  · exact .inr (.inl h)

theorem RowLe.energy {a b : Row} (h : RowLe a b) : a.E ≤ b.E := by
  rcases h with h | h
  · exact h.le
  · exact h.1.le

theorem sortRows_perm (rows : List Row) : (sortRows rows).Perm rows := List.mergeSort_perm _ _

theorem sortRows_sorted (rows : List Row) : (sortRows rows).Pairwise RowLe := by
  have h := List.pairwise_mergeSort (le := fun a b => decide (a.E < b.E ∨ a.E = b.E ∧ a.m ≤ b.m))
    (fun a b c h1 h2 => by
      rw [decide_eq_true_iff] at *
      exact rowLe_trans h1 h2)
    (fun a b => by
      rcases rowLe_total a b with h | h
      · simp [show (a.E < b.E ∨ a.E = b.E ∧ a.m ≤ b.m) from h]
      · simp [show (b.E < a.E ∨ b.E = a.E ∧ b.m ≤ a.m) from h]) rows
  refine h.imp fun h => ?_
  exact @of_decide_eq_true _ (_) h

open scoped Classical in
/-- In a list sorted by energy the first rows are those of lowest energy. -/
theorem energy_at {S : List Row} (hS : S.Pairwise RowLe) {e : ℝ} {j : ℕ}
    (hj : j < S.countP (fun r => r.E ≤ e)) (hl : j < S.length) : S[j].E ≤ e := by
  by_contra hlt
  have hd : (S.drop j).countP (fun r => r.E ≤ e) = 0 := by
    rw [List.countP_eq_zero]
    intro r hr hre
    obtain ⟨i, hi, rfl⟩ := List.mem_iff_getElem.1 hr
    rw [List.getElem_drop] at hre
    have hre' := of_decide_eq_true hre
    rcases Nat.eq_zero_or_pos i with h0 | h0
    · subst h0; exact hlt (by simpa using hre')
    · have := (List.pairwise_iff_getElem.1 hS j (j + i) hl (by simp at hi; omega) (by omega)).energy
      exact hlt (this.trans hre')
  have h1 : S.countP (fun r => r.E ≤ e) ≤ j := by
    conv_lhs => rw [← List.take_append_drop j S]
    rw [List.countP_append, hd, Nat.add_zero]
    exact List.countP_le_length.trans (List.length_take_le _ _)
  omega

open scoped Classical in
/-- A lower bound for the number of rows below an energy. -/
theorem count_ge {W L : List Row} (hL : L.Nodup) (hW : L ⊆ W) {e : ℝ} (he : ∀ r ∈ L, r.E ≤ e) :
    L.length ≤ W.countP (fun r => r.E ≤ e) := by
  have h1 := (hL.subperm hW).countP_le (fun r => decide (r.E ≤ e))
  rw [List.countP_eq_length.2 (fun r hr => by simpa using he r hr)] at h1
  exact h1

/-! ## The window -/

/-- The row of a state. -/
noncomputable def rowOf (omegaC omega : ℝ) (nm : ℤ × ℤ) : Row := ⟨nm.1, nm.2, shellEnergyB nm.1 nm.2 omegaC omega⟩

theorem rowOf_injective (omegaC omega : ℝ) : Function.Injective (rowOf omegaC omega) := by
  rintro ⟨n, m⟩ ⟨n', m'⟩ h
  simp only [rowOf, Row.mk.injEq] at h
  exact Prod.ext h.1 h.2.1

theorem mem_nArray {l : ℕ} {n : ℤ} : n ∈ nArray l ↔ 0 ≤ n ∧ n < l := by
  simp only [nArray, List.mem_map, List.mem_range]
  constructor
  · rintro ⟨i, hi, rfl⟩; omega
  · rintro ⟨h1, h2⟩; exact ⟨n.toNat, by omega, by omega⟩

theorem mem_mArray {l : ℕ} {m : ℤ} : m ∈ mArray l ↔ -(l : ℤ) - 5 ≤ m ∧ m ≤ l + 5 := by
  simp only [mArray, List.mem_map, List.mem_range]
  constructor
  · rintro ⟨i, hi, rfl⟩; omega
  · rintro ⟨h1, h2⟩; exact ⟨(m + l + 5).toNat, by omega, by omega⟩

theorem windowRows_eq (ns ms : List ℤ) (omegaC omega : ℝ) :
    windowRows ns ms omegaC omega = (ns ×ˢ ms).map (rowOf omegaC omega) := by
  show _ = (List.product ns ms).map _
  unfold windowRows List.product
  rw [List.map_flatMap]
  congr 1
  funext n
  rw [List.map_map]
  rfl

theorem mem_window {l : ℕ} {omegaC omega : ℝ} {r : Row} :
    r ∈ windowRows (nArray l) (mArray l) omegaC omega ↔
      ∃ n m : ℤ, 0 ≤ n ∧ n < l ∧ -(l : ℤ) - 5 ≤ m ∧ m ≤ l + 5 ∧ r = rowOf omegaC omega (n, m) := by
  rw [windowRows_eq, List.mem_map]
  constructor
  · rintro ⟨⟨n, m⟩, h, rfl⟩
    have := List.mem_product.1 h
    have h1 := mem_nArray.1 this.1
    have h2 := mem_mArray.1 this.2
    exact ⟨n, m, h1.1, h1.2, h2.1, h2.2, rfl⟩
  · rintro ⟨n, m, h1, h2, h3, h4, rfl⟩
    exact ⟨(n, m), List.mem_product.2 ⟨mem_nArray.2 ⟨h1, h2⟩, mem_mArray.2 ⟨h3, h4⟩⟩, rfl⟩

theorem window_nodup (l : ℕ) (omegaC omega : ℝ) :
    (windowRows (nArray l) (mArray l) omegaC omega).Nodup := by
  rw [windowRows_eq]
  refine List.Nodup.map (rowOf_injective _ _) (List.Nodup.product ?_ ?_)
  · exact List.Nodup.map (fun i j h => by simpa using h) List.nodup_range
  · exact List.Nodup.map (fun i j h => by
      have : (i : ℤ) - l - 5 = j - l - 5 := h
      omega) List.nodup_range

theorem window_length (l : ℕ) (omegaC omega : ℝ) :
    (windowRows (nArray l) (mArray l) omegaC omega).length = l * (2 * l + 11) := by
  rw [windowRows_eq, List.length_map]
  rw [List.length_product]
  simp [nArray, mArray]

/-! ## Energies -/

theorem abs_le_omegaB (omega omegaC : ℝ) : |omegaC| / 2 ≤ omegaB omega omegaC := by
  unfold omegaB
  refine Real.le_sqrt_of_sq_le ?_
  rw [div_pow, sq_abs]
  have := sq_nonneg omega
  linarith

theorem omegaB_nonneg (omega omegaC : ℝ) : 0 ≤ omegaB omega omegaC := Real.sqrt_nonneg _

/-- Energies grow with `n`. -/
theorem shellEnergyB_mono_n {omegaC omega : ℝ} (ho : 0 ≤ omega) {n n' : ℤ} (h : n ≤ n') (m : ℤ) :
    shellEnergyB n m omegaC omega ≤ shellEnergyB n' m omegaC omega := by
  unfold shellEnergyB
  have : ((2 * n + |m| + 1 : ℤ) : ℝ) ≤ ((2 * n' + |m| + 1 : ℤ) : ℝ) := by exact_mod_cast (by omega)
  have := mul_le_mul_of_nonneg_left this ho
  linarith

/-- Energies grow with `m > 0`. -/
theorem shellEnergyB_mono_m {omegaC omega : ℝ} (ho : |omegaC| / 2 ≤ omega) {m m' : ℤ} (hm : 0 ≤ m)
    (h : m ≤ m') (n : ℤ) : shellEnergyB n m omegaC omega ≤ shellEnergyB n m' omegaC omega := by
  unfold shellEnergyB
  rw [abs_of_nonneg hm, abs_of_nonneg (hm.trans h)]
  have h1 : (m : ℝ) ≤ m' := by exact_mod_cast h
  have h2 : omegaC ≤ |omegaC| := le_abs_self _
  push_cast
  nlinarith

/-- Energies grow with `-m > 0`. -/
theorem shellEnergyB_mono_neg {omegaC omega : ℝ} (ho : |omegaC| / 2 ≤ omega) {m m' : ℤ} (hm : 0 ≤ m)
    (h : m ≤ m') (n : ℤ) : shellEnergyB n (-m) omegaC omega ≤ shellEnergyB n (-m') omegaC omega := by
  unfold shellEnergyB
  rw [abs_neg, abs_neg, abs_of_nonneg hm, abs_of_nonneg (hm.trans h)]
  have h1 : (m : ℝ) ≤ m' := by exact_mod_cast h
  have h2 : -omegaC ≤ |omegaC| := neg_le_abs _
  push_cast
  nlinarith

/-- `l` states of the window that are not above a given state outside of it. -/
theorem outside_window {l : ℕ} {omegaC omega : ℝ} (ho : |omegaC| / 2 ≤ omega) {n m : ℤ} (hn : 0 ≤ n)
    (hout : ¬ (n < l ∧ -(l : ℤ) - 5 ≤ m ∧ m ≤ l + 5)) :
    ∃ L : List Row, L.Nodup ∧ L ⊆ windowRows (nArray l) (mArray l) omegaC omega ∧ L.length = l ∧
      ∀ r ∈ L, r.E ≤ shellEnergyB n m omegaC omega := by
  have ho' : 0 ≤ omega := le_trans (by positivity) ho
  by_cases h1 : (l : ℤ) + 5 < m
  · refine ⟨(List.range l).map fun i : ℕ => rowOf omegaC omega (0, (i : ℤ)), ?_, ?_, by simp, ?_⟩
    · exact List.Nodup.map (fun i j h => by simpa using rowOf_injective _ _ h) List.nodup_range
    · intro r hr
      obtain ⟨i, hi, rfl⟩ := List.mem_map.1 hr
      rw [List.mem_range] at hi
      exact mem_window.2 ⟨0, i, le_rfl, by omega, by omega, by omega, rfl⟩
    · intro r hr
      obtain ⟨i, hi, rfl⟩ := List.mem_map.1 hr
      rw [List.mem_range] at hi
      exact (shellEnergyB_mono_m ho (by omega) (show (i : ℤ) ≤ m by omega) 0).trans
        (shellEnergyB_mono_n ho' hn m)
  by_cases h2 : m < -(l : ℤ) - 5
  · refine ⟨(List.range l).map fun i : ℕ => rowOf omegaC omega (0, -(i : ℤ)), ?_, ?_, by simp, ?_⟩
    · exact List.Nodup.map (fun i j h => by simpa using rowOf_injective _ _ h) List.nodup_range
    · intro r hr
      obtain ⟨i, hi, rfl⟩ := List.mem_map.1 hr
      rw [List.mem_range] at hi
      exact mem_window.2 ⟨0, -i, le_rfl, by omega, by omega, by omega, rfl⟩
    · intro r hr
      obtain ⟨i, hi, rfl⟩ := List.mem_map.1 hr
      rw [List.mem_range] at hi
      have := shellEnergyB_mono_neg ho (by omega) (show (i : ℤ) ≤ -m by omega) 0
      rw [neg_neg] at this
      exact this.trans (shellEnergyB_mono_n ho' hn m)
  · refine ⟨(List.range l).map fun i : ℕ => rowOf omegaC omega ((i : ℤ), m), ?_, ?_, by simp, ?_⟩
    · exact List.Nodup.map (fun i j h => by simpa using rowOf_injective _ _ h) List.nodup_range
    · intro r hr
      obtain ⟨i, hi, rfl⟩ := List.mem_map.1 hr
      rw [List.mem_range] at hi
      exact mem_window.2 ⟨i, m, by omega, by omega, by omega, by omega, rfl⟩
    · intro r hr
      obtain ⟨i, hi, rfl⟩ := List.mem_map.1 hr
      rw [List.mem_range] at hi
      exact shellEnergyB_mono_n ho' (by omega) m

/-! ## The cap -/

theorem capLoop_ge {cap : ℕ} {L : List ℕ} {k r : ℕ} (h : capLoop cap L k = .ok r) : k ≤ r := by
  induction L generalizing k with
  | nil => cases h
  | cons lev L ih =>
    rw [capLoop] at h
    split_ifs at h with hc
    · exact (Nat.le_succ k).trans (ih h)
    · cases h; exact le_rfl

theorem capLoop_le {cap : ℕ} {L : List ℕ} {k r : ℕ} (h : capLoop cap L k = .ok r) : r < k + L.length := by
  induction L generalizing k with
  | nil => cases h
  | cons lev L ih =>
    rw [capLoop] at h
    simp only [List.length_cons]
    split_ifs at h with hc
    · have := ih h; omega
    · cases h; omega

theorem capLoop_head {cap : ℕ} {L : List ℕ} {k r : ℕ} (h : capLoop cap (cap :: L) k = .ok r) : k + 1 ≤ r := by
  rw [capLoop, if_pos rfl] at h
  exact capLoop_ge h

theorem capLoop_ok {cap : ℕ} {L : List ℕ} (k : ℕ) (h : ∃ lev ∈ L, lev ≠ cap) :
    ∃ r, capLoop cap L k = .ok r := by
  induction L generalizing k with
  | nil => simp at h
  | cons lev L ih =>
    rw [capLoop]
    split_ifs with hc
    · refine ih (k + 1) ?_
      obtain ⟨x, hx, hne⟩ := h
      rcases List.mem_cons.1 hx with rfl | hx
      · exact absurd hc hne
      · exact ⟨x, hx, hne⟩
    · exact ⟨k, rfl⟩

theorem capLoop_error {cap : ℕ} {L : List ℕ} (k : ℕ) (h : ∀ lev ∈ L, lev = cap) :
    capLoop cap L k = .error .index := by
  induction L generalizing k with
  | nil => rfl
  | cons lev L ih =>
    rw [capLoop, if_pos (h lev (by simp))]
    exact ih (k + 1) fun x hx => h x (by simp [hx])

/-- A successful `construct_dataframe` returns the first rows of the sorted window. -/
theorem constructDataframe_ok {ns ms : List ℤ} {omegaC omega : ℝ} {df : List Row}
    (h : constructDataframe ns ms omegaC omega = .ok df) :
    ∃ r, df = (sortRows (windowRows ns ms omegaC omega)).take r ∧
      ns.length * (ns.length - 1) / 2 + 1 ≤ r ∧
      r ≤ (windowRows ns ms omegaC omega).length := by
  unfold constructDataframe at h
  dsimp only at h
  split_ifs at h with hnil
  · cases h
  generalize hlev : List.map _ (sortRows (windowRows ns ms omegaC omega)) = levels at h
  generalize hk : ns.length * (ns.length - 1) / 2 = k at h ⊢
  have hlen : levels.length = (windowRows ns ms omegaC omega).length := by
    rw [← hlev, List.length_map, (sortRows_perm _).length_eq]
  cases hc : levels[k]? with
  | none => rw [hc] at h; cases h
  | some cap =>
    rw [hc] at h
    dsimp only at h
    obtain ⟨hkl, hcap⟩ := List.getElem?_eq_some_iff.1 hc
    rw [List.drop_eq_getElem_cons hkl, hcap] at h
    cases hr : capLoop cap (cap :: levels.drop (k + 1)) k with
    | error e => rw [hr] at h; cases h
    | ok r =>
      rw [hr] at h
      cases h
      refine ⟨r, rfl, capLoop_head hr, ?_⟩
      have := capLoop_le hr
      simp at this
      omega

theorem half_bound (l : ℕ) : l ≤ l * (l - 1) / 2 + 1 := by
  match l with
  | 0 => omega
  | 1 => omega
  | 2 => decide
  | l + 3 =>
    have : (l + 3) * 2 ≤ (l + 3) * (l + 3 - 1) := Nat.mul_le_mul_left _ (by omega)
    omega

/-- What a successful construction of the data frame says about its first `l` rows. -/
theorem dataframeB_ok {l : ℕ} {omega omegaC : ℝ} {df : List Row} (h : dataframeB l omega omegaC = .ok df) :
    l ≤ df.length ∧ df.take l
      = (sortRows (windowRows (nArray l) (mArray l) omegaC (omegaB omega omegaC))).take l := by
  obtain ⟨r, hdf, h1, h2⟩ := constructDataframe_ok h
  have hns : (nArray l).length = l := by simp [nArray]
  rw [hns] at h1
  have hl := half_bound l
  have hlen := (sortRows_perm (windowRows (nArray l) (mArray l) omegaC (omegaB omega omegaC))).length_eq
  constructor
  · rw [hdf, List.length_take]; omega
  · rw [hdf, List.take_take, min_eq_left (by omega)]

/-! ## Levels -/

theorem mem_uniqueFirst {α : Type} {x : α} {L : List α} : x ∈ uniqueFirst L ↔ x ∈ L := by
  induction L with
  | nil => simp [uniqueFirst]
  | cons y L ih =>
    simp only [uniqueFirst, List.mem_cons, List.mem_filter, ih, decide_eq_true_eq]
    constructor
    · rintro (h | h)
      · exact .inl h
      · exact .inr h.1
    · rintro (h | h)
      · exact .inl h
      · by_cases e : x = y
        · exact .inl e
        · exact .inr ⟨h, e⟩

theorem round8_near (x : ℝ) : |x - round8 x| ≤ 1 / 10 ^ 8 := by
  unfold round8
  have h1 := Int.floor_le (x * 10 ^ 8)
  have h2 := Int.lt_floor_add_one (x * 10 ^ 8)
  have key : ∀ y : ℝ, |x * 10 ^ 8 - y| ≤ 1 → |x - y / 10 ^ 8| ≤ 1 / 10 ^ 8 := by
    intro y hy
    rw [show x - y / 10 ^ 8 = (x * 10 ^ 8 - y) / 10 ^ 8 by field_simp, abs_div,
      abs_of_pos (show (0 : ℝ) < 10 ^ 8 by norm_num)]
    exact div_le_div_of_nonneg_right hy (by norm_num)
  dsimp only
  have a : |x * 10 ^ 8 - (⌊x * 10 ^ 8⌋ : ℝ)| ≤ 1 := by rw [abs_le]; constructor <;> linarith
  have b : |x * 10 ^ 8 - ((⌊x * 10 ^ 8⌋ : ℝ) + 1)| ≤ 1 := by rw [abs_le]; constructor <;> linarith
  split_ifs
  · exact key _ a
  · exact key _ b
  · exact key _ a
  · exact key _ b

open scoped Classical in
theorem foldl_last {α : Type} (P : α → Prop) (L : List (α × ℕ)) (x : ℕ) :
    (L.foldl (fun lev ei => if P ei.1 then ei.2 else lev) x = x ∧ ∀ ei ∈ L, ¬ P ei.1) ∨
      ∃ ei ∈ L, P ei.1 ∧ L.foldl (fun lev ei => if P ei.1 then ei.2 else lev) x = ei.2 := by
  induction L generalizing x with
  | nil => simp
  | cons a L ih =>
    rw [List.foldl_cons]
    by_cases ha : P a.1
    · rw [if_pos ha]
      right
      rcases ih a.2 with ⟨h1, -⟩ | ⟨ei, h1, h2, h3⟩
      · exact ⟨a, by simp, ha, h1⟩
      · exact ⟨ei, by simp [h1], h2, h3⟩
    · rw [if_neg ha]
      rcases ih x with ⟨h1, h2⟩ | ⟨ei, h1, h2, h3⟩
      · left
        refine ⟨h1, fun ei hei => ?_⟩
        rcases List.mem_cons.1 hei with rfl | hei
        · exact ha
        · exact h2 ei hei
      · exact .inr ⟨ei, by simp [h1], h2, h3⟩

/-- The energy of a row's level is closer than `10⁻⁶`. -/
theorem levelOf_near {energies : List ℝ} {E : ℝ} (h : ∃ e ∈ energies, |E - e| < 1 / 10 ^ 6) :
    ∃ e, energies[levelOf energies E]? = some e ∧ |E - e| < 1 / 10 ^ 6 := by
  unfold levelOf
  rcases foldl_last (fun e => |E - e| < 1 / 10 ^ 6) energies.zipIdx 0 with ⟨-, h2⟩ | ⟨ei, h1, h2, h3⟩
  · obtain ⟨e, he, hn⟩ := h
    obtain ⟨i, hi, rfl⟩ := List.mem_iff_getElem.1 he
    exact absurd hn (h2 (energies[i], i) (List.mem_zipIdx_iff_getElem?.2 (by simp [hi])))
  · refine ⟨ei.1, ?_, h2⟩
    rw [h3]
    exact List.mem_zipIdx_iff_getElem?.1 h1

/-- Rows of the same level have nearly the same energy. -/
theorem same_level {rows : List Row} {r r' : Row} (hr : r ∈ rows) (hr' : r' ∈ rows)
    (h : levelOf (uniqueFirst (rows.map fun row => round8 row.E)) r.E
      = levelOf (uniqueFirst (rows.map fun row => round8 row.E)) r'.E) : |r.E - r'.E| < 2 / 10 ^ 6 := by
  have near : ∀ r ∈ rows, ∃ e ∈ uniqueFirst (rows.map fun row => round8 row.E), |r.E - e| < 1 / 10 ^ 6 := by
    intro r hr
    refine ⟨round8 r.E, mem_uniqueFirst.2 (List.mem_map.2 ⟨r, hr, rfl⟩), (round8_near r.E).trans_lt ?_⟩
    norm_num
  obtain ⟨e, h1, h2⟩ := levelOf_near (near r hr)
  obtain ⟨e', h1', h2'⟩ := levelOf_near (near r' hr')
  rw [h, h1'] at h1
  cases h1
  rw [abs_lt] at h2 h2' ⊢
  constructor <;> linarith [h2.1, h2.2, h2'.1, h2'.2]

/-- A row close to all energies gets the last level. -/
theorem levelOf_last {energies : List ℝ} {E : ℝ} (h : ∀ e ∈ energies, |E - e| < 1 / 10 ^ 6) :
    levelOf energies E = energies.length - 1 := by
  unfold levelOf
  have : ∀ (L : List ℝ) (k x : ℕ), (∀ e ∈ L, |E - e| < 1 / 10 ^ 6) →
      (L.zipIdx k).foldl (fun lev (ei : ℝ × ℕ) => if |E - ei.1| < 1 / 10 ^ 6 then ei.2 else lev) x
        = if L = [] then x else k + L.length - 1 := by
    intro L
    induction L with
    | nil => intros; rfl
    | cons a L ih =>
      intro k x hL
      rw [List.zipIdx_cons, List.foldl_cons, if_pos (hL a (by simp)), ih (k + 1) k
        fun e he => hL e (by simp [he])]
      cases L with
      | nil => simp
      | cons _ _ => simp; omega
  rw [this energies 0 0 h]
  split_ifs with hn
  · simp [hn]
  · simp

/-- If the energies differ by less than the tolerance, the data frame is not constructed. -/
theorem constructDataframe_error {ns ms : List ℤ} {omegaC omega : ℝ}
    (hne : windowRows ns ms omegaC omega ≠ [])
    (h : ∀ r ∈ windowRows ns ms omegaC omega, ∀ r' ∈ windowRows ns ms omegaC omega,
      |r.E - r'.E| ≤ 1 / 10 ^ 7) :
    constructDataframe ns ms omegaC omega = .error .index := by
  unfold constructDataframe
  dsimp only
  rw [if_neg hne]
  generalize hlev : List.map _ (sortRows (windowRows ns ms omegaC omega)) = levels
  have hall : ∃ c, ∀ lev ∈ levels, lev = c := by
    refine ⟨(uniqueFirst (List.map (fun row => round8 row.E)
      (sortRows (windowRows ns ms omegaC omega)))).length - 1, fun lev hl => ?_⟩
    rw [← hlev] at hl
    obtain ⟨r, hr, rfl⟩ := List.mem_map.1 hl
    refine levelOf_last fun e he => ?_
    obtain ⟨r', hr', rfl⟩ := List.mem_map.1 (mem_uniqueFirst.1 he)
    have h1 := h r ((sortRows_perm _).mem_iff.1 hr) r' ((sortRows_perm _).mem_iff.1 hr')
    have h2 := round8_near r'.E
    rw [abs_le] at h1 h2
    rw [abs_lt]
    constructor <;> linarith [h1.1, h1.2, h2.1, h2.2]
  obtain ⟨c, hc⟩ := hall
  cases hk : levels[ns.length * (ns.length - 1) / 2]? with
  | none => rfl
  | some cap =>
    dsimp only
    obtain ⟨hkl, hcap⟩ := List.getElem?_eq_some_iff.1 hk
    rw [capLoop_error]
    · rfl
    · intro lev hl
      rw [hc lev (List.mem_of_mem_drop hl), ← hcap, hc _ (List.getElem_mem hkl)]

/-- Unless the frequency is tiny, the data frame is constructed. -/
theorem dataframeB_succeeds {l : ℕ} (hl : 1 ≤ l) {omega omegaC : ℝ} (ho : 2 / 10 ^ 6 ≤ omegaB omega omegaC) :
    ∃ df, dataframeB l omega omegaC = .ok df := by
  classical
  unfold dataframeB constructDataframe
  set W := windowRows (nArray l) (mArray l) omegaC (omegaB omega omegaC) with hW
  have hlenW : W.length = l * (2 * l + 11) := window_length _ _ _
  have hne : W ≠ [] := by
    intro e
    rw [e] at hlenW
    simp at hlenW
    omega
  have hns : (nArray l).length = l := by simp [nArray]
  dsimp only
  rw [if_neg hne, hns]
  set S := sortRows W with hS
  have hlenS : S.length = l * (2 * l + 11) := by rw [hS, (sortRows_perm _).length_eq, hlenW]
  set energies := uniqueFirst (S.map fun row => round8 row.E) with hen
  have hk : l * (l - 1) / 2 + 1 ≤ l * (l + 1) := by
    have : l * (l - 1) ≤ l * (l + 1) := Nat.mul_le_mul_left _ (by omega)
    have : 1 * 2 ≤ l * (l + 1) := Nat.mul_le_mul hl (by omega)
    omega
  have hk' : l * (l + 1) ≤ l * (2 * l + 11) := Nat.mul_le_mul_left _ (by omega)
  have hkS : l * (l - 1) / 2 < S.length := by omega
  rw [show (S.map fun row => levelOf energies row.E)[l * (l - 1) / 2]?
    = some (levelOf energies S[l * (l - 1) / 2].E) by simp [hkS]]
  dsimp only
  -- the highest state of the window
  let mx : ℤ := if 0 ≤ omegaC then -(l + 5) else l + 5
  let top : Row := rowOf omegaC (omegaB omega omegaC) ((l : ℤ) - 1, mx)
  have hlR : (1 : ℝ) ≤ l := by exact_mod_cast hl
  have hmx : |mx| = l + 5 ∧ omegaC * mx = -(|omegaC| * (l + 5)) := by
    by_cases h0 : 0 ≤ omegaC
    · simp only [mx, h0, if_true]
      refine ⟨by rw [abs_neg]; exact abs_of_nonneg (by omega), ?_⟩
      rw [abs_of_nonneg h0]; push_cast; ring
    · simp only [mx, h0, if_false]
      refine ⟨abs_of_nonneg (by omega), ?_⟩
      rw [abs_of_neg (not_le.1 h0)]; push_cast; ring
  have htop : top ∈ S := by
    rw [(sortRows_perm _).mem_iff]
    have := abs_le.1 hmx.1.le
    exact mem_window.2 ⟨_, _, by omega, by omega, by omega, by omega, rfl⟩
  have htopE : top.E = omegaB omega omegaC * (3 * l + 4) + |omegaC| * (l + 5) / 2 := by
    show shellEnergyB _ _ _ _ = _
    unfold shellEnergyB
    rw [hmx.2, hmx.1]
    push_cast
    ring
  have hlow : S[l * (l - 1) / 2].E ≤ top.E - omegaB omega omegaC := by
    refine energy_at (sortRows_sorted W) ?_ hkS
    rw [(sortRows_perm W).countP_eq]
    have hL : ((nArray l ×ˢ ((List.range (l + 1)).map fun i : ℕ => (i : ℤ))).map
        (rowOf omegaC (omegaB omega omegaC))).Nodup := by
      refine List.Nodup.map (rowOf_injective _ _) (List.Nodup.product ?_ ?_)
      · exact List.Nodup.map (fun i j h => by simpa using h) List.nodup_range
      · exact List.Nodup.map (fun i j h => by simpa using h) List.nodup_range
    refine lt_of_lt_of_le ?_ (count_ge hL ?_ ?_)
    · rw [List.length_map, List.length_product, hns]
      simp only [List.length_map, List.length_range]
      omega
    · intro r hr
      obtain ⟨⟨n, m⟩, h, rfl⟩ := List.mem_map.1 hr
      have h' := List.mem_product.1 h
      have h1 := mem_nArray.1 h'.1
      obtain ⟨i, hi, rfl⟩ := List.mem_map.1 h'.2
      rw [List.mem_range] at hi
      exact mem_window.2 ⟨n, i, h1.1, h1.2, by omega, by omega, rfl⟩
    · intro r hr
      obtain ⟨⟨n, m⟩, h, rfl⟩ := List.mem_map.1 hr
      have h' := List.mem_product.1 h
      have h1 := mem_nArray.1 h'.1
      obtain ⟨i, hi, rfl⟩ := List.mem_map.1 h'.2
      rw [List.mem_range] at hi
      rw [htopE]
      show shellEnergyB _ _ _ _ ≤ _
      unfold shellEnergyB
      dsimp only
      rw [abs_of_nonneg (show (0 : ℤ) ≤ i by omega)]
      have e1 : (n : ℝ) ≤ l - 1 := by
        have : n ≤ (l : ℤ) - 1 := by omega
        exact_mod_cast this
      have e2 : (i : ℝ) ≤ l := by exact_mod_cast (by omega : i ≤ l)
      have e3 : (0 : ℝ) ≤ i := by positivity
      have e4 := omegaB_nonneg omega omegaC
      have e5 : -omegaC ≤ |omegaC| := neg_le_abs _
      have e6 := abs_nonneg omegaC
      have e7 : -(omegaC * i) / 2 ≤ |omegaC| * (l + 5) / 2 := by nlinarith
      have e8 : omegaB omega omegaC * (2 * n + i + 1) ≤ omegaB omega omegaC * (3 * l + 4 - 1) :=
        mul_le_mul_of_nonneg_left (by linarith) e4
      push_cast
      linarith
  have hcap : ∃ lev ∈ (S.map fun row => levelOf energies row.E).drop (l * (l - 1) / 2),
      lev ≠ levelOf energies S[l * (l - 1) / 2].E := by
    have hlast : S.length - 1 < S.length := by omega
    refine ⟨levelOf energies (S[S.length - 1]).E, ?_, ?_⟩
    · rw [← List.map_drop]
      refine List.mem_map.2 ⟨S[S.length - 1], ?_, rfl⟩
      refine List.mem_iff_getElem.2 ⟨S.length - 1 - l * (l - 1) / 2, by simp; omega, ?_⟩
      rw [List.getElem_drop]
      congr 1
      omega
    · intro he
      have h1 := same_level (List.getElem_mem hlast) (List.getElem_mem hkS) he
      have h2 : top.E ≤ (S[S.length - 1]).E := by
        obtain ⟨i, hi, hit⟩ := List.mem_iff_getElem.1 htop
        rw [← hit]
        rcases Nat.lt_or_ge i (S.length - 1) with h | h
        · exact (List.pairwise_iff_getElem.1 (sortRows_sorted W) i (S.length - 1) hi hlast h).energy
        · have : i = S.length - 1 := by omega
          subst this
          exact le_rfl
      rw [abs_lt] at h1
      linarith [h1.1, h1.2]
  obtain ⟨r, hr⟩ := capLoop_ok (l * (l - 1) / 2) hcap
  rw [hr]
  exact ⟨_, rfl⟩

/-! ## Without field -/

theorem zero_energy (N k : ℕ) (hk : k ≤ N) (omega : ℝ) :
    rowOf 0 omega (getIndicesNm (tri N + k)) = ⟨min (k : ℤ) (N - k), 2 * (k : ℤ) - N, omega * (N + 1)⟩ := by
  rw [getIndicesNm_shell N k hk]
  unfold rowOf shellEnergyB
  have hN : 2 * min (k : ℤ) (N - k) + |2 * (k : ℤ) - N| + 1 = (N : ℤ) + 1 := by
    rcases le_total (2 * (k : ℤ) - N) 0 with h | h
    · rw [abs_of_nonpos h, min_eq_left (by omega)]; ring
    · rw [abs_of_nonneg h, min_eq_right (by omega)]; ring
  dsimp only
  rw [hN]
  push_cast
  simp

/-- The order of the index map is the sorting order. -/
theorem zero_strict {omega : ℝ} (ho : 0 < omega) {p q : ℕ} (h : p < q) :
    RowLe (rowOf 0 omega (getIndicesNm p)) (rowOf 0 omega (getIndicesNm q)) := by
  obtain ⟨N, k, hk, rfl⟩ := exists_shell p
  obtain ⟨M, j, hj, rfl⟩ := exists_shell q
  rw [zero_energy N k hk, zero_energy M j hj]
  have hNM : N ≤ M := by
    by_contra hlt
    have := tri_mono (show M + 1 ≤ N by omega)
    simp only [tri] at this
    omega
  rcases hNM.lt_or_eq with hlt | rfl
  · left
    have : (N : ℝ) < M := by exact_mod_cast hlt
    show omega * (N + 1) < omega * (M + 1)
    nlinarith
  · right
    exact ⟨rfl, by show 2 * (k : ℤ) - N ≤ 2 * j - N; omega⟩

theorem zero_antisymm {omega : ℝ} (ho : 0 < omega) {a b : ℤ × ℤ}
    (h1 : RowLe (rowOf 0 omega a) (rowOf 0 omega b)) (h2 : RowLe (rowOf 0 omega b) (rowOf 0 omega a)) :
    rowOf 0 omega a = rowOf 0 omega b := by
  have hE : shellEnergyB a.1 a.2 0 omega = shellEnergyB b.1 b.2 0 omega := le_antisymm h1.energy h2.energy
  have hm : a.2 = b.2 := by
    rcases h1 with h1 | ⟨-, h1⟩
    · exact absurd h1 (not_lt.2 h2.energy)
    · rcases h2 with h2 | ⟨-, h2⟩
      · exact absurd hE (ne_of_gt h2)
      · exact le_antisymm h1 h2
  unfold shellEnergyB at hE
  rw [hm] at hE
  simp only [zero_mul, zero_div, sub_zero] at hE
  have := mul_left_cancel₀ ho.ne' hE
  have : 2 * a.1 + |b.2| + 1 = 2 * b.1 + |b.2| + 1 := by exact_mod_cast this
  congr 1
  exact Prod.ext (by omega) hm

theorem sorted_unique {S T : List Row} (hp : S.Perm T)
    (hanti : ∀ a ∈ S, ∀ b ∈ S, RowLe a b → RowLe b a → a = b)
    (hS : S.Pairwise RowLe) (hT : T.Pairwise RowLe) : S = T :=
  List.Perm.eq_of_pairwise (le := RowLe) (fun a b ha hb h1 h2 => hanti a ha b (hp.mem_iff.2 hb) h1 h2) hS hT hp

/-- Without field, the first `l` rows of the sorted window are the first `l` states of the index map. -/
theorem zero_field_order {l : ℕ} {omega : ℝ} (ho : 0 < omega) :
    (sortRows (windowRows (nArray l) (mArray l) 0 omega)).take l
      = (List.range l).map fun p => rowOf 0 omega (getIndicesNm p) := by
  classical
  set W := windowRows (nArray l) (mArray l) 0 omega with hW
  set A := (List.range l).map fun p => rowOf 0 omega (getIndicesNm p) with hA
  have hinj : ∀ p q, getIndicesNm p = getIndicesNm q → p = q := by
    intro p q h
    obtain ⟨N, k, hk, rfl⟩ := exists_shell p
    obtain ⟨M, j, hj, rfl⟩ := exists_shell q
    have h1 := getIndexP_shell N k hk
    have h2 := getIndexP_shell M j hj
    rw [getIndicesNm_shell N k hk, getIndicesNm_shell M j hj, Prod.ext_iff] at h
    dsimp only at h
    rw [h.1, h.2] at h1
    have := h1.symm.trans h2
    exact_mod_cast this
  have hAn : A.Nodup := List.Nodup.map (fun p q h => hinj p q (rowOf_injective _ _ h)) List.nodup_range
  have hAW : A ⊆ W := by
    intro r hr
    obtain ⟨p, hp, rfl⟩ := List.mem_map.1 hr
    rw [List.mem_range] at hp
    obtain ⟨N, k, hk, rfl⟩ := exists_shell p
    rw [getIndicesNm_shell N k hk]
    have := le_tri N
    exact mem_window.2 ⟨_, _, by omega, by omega, by omega, by omega, rfl⟩
  let R := W.filter (fun r => r ∉ A)
  have hperm : W.Perm (A ++ sortRows R) := by
    refine List.Perm.trans ?_ ((List.Perm.refl A).append (sortRows_perm R).symm)
    rw [List.perm_ext_iff_of_nodup (window_nodup _ _ _)]
    · intro r
      simp only [R, List.mem_append, List.mem_filter, decide_eq_true_eq]
      constructor
      · intro h
        by_cases hr : r ∈ A
        · exact .inl hr
        · exact .inr ⟨h, hr⟩
      · rintro (h | h)
        · exact hAW h
        · exact h.1
    · refine List.Nodup.append hAn ((window_nodup _ _ _).filter _) ?_
      intro r h1 h2
      simp only [R, List.mem_filter, decide_eq_true_eq] at h2
      exact h2.2 h1
  have hsorted : (A ++ sortRows R).Pairwise RowLe := by
    rw [List.pairwise_append]
    refine ⟨?_, sortRows_sorted R, ?_⟩
    · rw [hA, List.pairwise_map]
      exact (List.pairwise_lt_range (n := l)).imp fun h => zero_strict ho h
    · intro a ha r hr
      obtain ⟨p, hp, rfl⟩ := List.mem_map.1 ha
      rw [List.mem_range] at hp
      have hr' := (sortRows_perm R).mem_iff.1 hr
      simp only [R, List.mem_filter, decide_eq_true_eq] at hr'
      obtain ⟨n, m, h1, -, -, -, rfl⟩ := mem_window.1 hr'.1
      obtain ⟨N, k, hk, rfl, rfl, -⟩ := exists_position n m h1
      have e : (min (k : ℤ) (N - k), 2 * (k : ℤ) - N) = getIndicesNm (tri N + k) :=
        (getIndicesNm_shell N k hk).symm
      rw [e] at hr' ⊢
      refine zero_strict ho ?_
      by_contra hlt
      exact hr'.2 (List.mem_map.2 ⟨tri N + k, List.mem_range.2 (by omega), rfl⟩)
  have := sorted_unique ((sortRows_perm W).trans hperm) (fun a ha b hb h1 h2 => by
    obtain ⟨n, m, -, -, -, -, rfl⟩ := mem_window.1 ((sortRows_perm W).mem_iff.1 ha)
    obtain ⟨n', m', -, -, -, -, rfl⟩ := mem_window.1 ((sortRows_perm W).mem_iff.1 hb)
    exact zero_antisymm ho h1 h2) (sortRows_sorted W) hsorted
  rw [this, List.take_append_of_le_length (by simp [hA])]
  exact List.take_of_length_le (by simp [hA])

/-! ## The constructor -/

theorem getOneBodyElementsB_eq {l : ℕ} {df : List Row} (h : l ≤ df.length) :
    getOneBodyElementsB l df = .ok (ofFn .float64 [l, l] (fun i => if i.getD 0 0 = i.getD 1 0 then
      ((df.getD (i.getD 0 0) ⟨0, 0, 0⟩).E : ℂ) else 0)) := by
  unfold getOneBodyElementsB
  rw [foldlM_pointwise [l, l] _ (fun p i x => if i = [p, p] then ((df.getD p ⟨0, 0, 0⟩).E : ℂ) else x) _ _ rfl]
  · congr 1
    unfold pointwise zeros
    simp only [ofFn]
    congr 1
    funext i
    by_cases hi : InRange [l, l] i
    · simp only [hi, if_true]
      obtain ⟨p, q, rfl, hp, hq⟩ := inRange2 hi
      rw [foldl_range_unique (fun p' x => if [p, q] = [p', p'] then
        ((df.getD p' ⟨0, 0, 0⟩).E : ℂ) else x) l p _ hp]
      · by_cases h : p = q
        · subst h; simp
        · rw [if_neg (by simp; exact fun e => h e.symm), if_neg (by simpa using h)]
      · intro k hk x; simp [hk.symm]
    · simp [hi]
  · intro p hp a ha
    have hp' : p < l := by simpa using hp
    have hp2 : p < df.length := by omega
    rw [show df[p]? = some df[p] by simp [hp2]]
    dsimp only
    rw [setItem_ok a _ (by rw [ha]; exact ⟨hp', hp', trivial⟩)]
    simp [List.getD, hp2]

theorem getCoulombElementsB_eq (num : ℕ) (df : List Row) : getCoulombElementsB num df
    = .ok (NDArray.ofFn .float64 [num, num, num, num] (fun i => ((Coulomb.coulombHo
        (indicesNmB df (i.getD 0 0)).1 (indicesNmB df (i.getD 0 0)).2
        (indicesNmB df (i.getD 1 0)).1 (indicesNmB df (i.getD 1 0)).2
        (indicesNmB df (i.getD 2 0)).1 (indicesNmB df (i.getD 2 0)).2
        (indicesNmB df (i.getD 3 0)).1 (indicesNmB df (i.getD 3 0)).2 : ℝ) : ℂ))) :=
  NDArray.fill4 .float64 num _

/-- The constructor succeeds whenever the data frame is constructed, and sets these attributes. -/
theorem oscB_ok {l : ℕ} {omega omegaC : ℝ} {df : List Row} (h : dataframeB l omega omegaC = .ok df)
    (num : ℕ) (radiusLength mass : ℝ) (np : Module) :
    ∃ b hh u, oscB l num radiusLength omega mass omegaC np = .ok (b, df) ∧
      getOneBodyElementsB l df = .ok hh ∧ getCoulombElementsB l df = .ok u ∧
      b.l = l ∧ b.dim = 2 ∧ b.np = some np ∧
      b.h = some hh.toComplex ∧ b.s = some (eye l).toComplex ∧
      b.u = some (smul .float64 (Real.sqrt (omegaB omega omegaC) : ℂ) u).toComplex ∧
      b.spf = some (setupSpf (indicesNmB df) l num radiusLength (omegaB omega omegaC) mass).toComplex ∧
      b.dipole = some (ofFn .complex128 [2, l, l] (fun i =>
        dipoleEntry (indicesNmB df) (omegaB omega omegaC) mass (i.getD 0 0) (i.getD 1 0)
          (i.getD 2 0))).toComplex := by
  have hl := (dataframeB_ok h).1
  unfold dataframeB at h
  unfold oscB oscBSetup
  dsimp only
  simp only [PyM.run_bind, run_get, run_liftM, run_modify]
  rw [show (BasisSet.init l 2 np : BasisSet ℂ).l = l from rfl, h]
  simp only [getOneBodyElementsB_eq hl, getCoulombElementsB_eq, constructDipoleMoment_eq]
  rw [castToComplex_run (np := np) rfl]
  simp only [PyM.run_bind, run_get, casted, BasisSet.init]
  rw [changeModule_plain rfl (by simp) np]
  exact ⟨_, _, _, rfl, rfl, rfl, rfl, rfl, rfl, rfl, rfl, rfl, rfl, rfl⟩

/-- Flags, spin operators and dual functions of the basis set of `oscB_ok`. -/
theorem oscB_rest {l : ℕ} {omega omegaC : ℝ} {df : List Row} (h : dataframeB l omega omegaC = .ok df)
    (num : ℕ) (radiusLength mass : ℝ) (np : Module) :
    ∃ b, oscB l num radiusLength omega mass omegaC np = .ok (b, df) ∧
      b.includesSpin = false ∧ b.antiSym = false ∧ NoSpinOps b ∧ b.spin2tb = none ∧
      b.bra = some (setupSpf (indicesNmB df) l num radiusLength (omegaB omega omegaC) mass).conj.toComplex := by
  have hl := (dataframeB_ok h).1
  unfold dataframeB at h
  unfold oscB oscBSetup
  dsimp only
  simp only [PyM.run_bind, run_get, run_liftM, run_modify]
  rw [show (BasisSet.init l 2 np : BasisSet ℂ).l = l from rfl, h]
  simp only [getOneBodyElementsB_eq hl, getCoulombElementsB_eq, constructDipoleMoment_eq]
  rw [castToComplex_run (np := np) rfl]
  simp only [PyM.run_bind, run_get, casted, BasisSet.init]
  rw [changeModule_plain rfl (by simp) np]
  exact ⟨_, rfl, rfl, rfl, ⟨rfl, rfl, rfl, rfl⟩, rfl, rfl⟩

/-- Without data frame there is no basis set. -/
theorem oscB_error {l : ℕ} {omega omegaC : ℝ} {e : PyErr} (h : dataframeB l omega omegaC = .error e)
    (num : ℕ) (radiusLength mass : ℝ) (np : Module) :
    oscB l num radiusLength omega mass omegaC np = .error e := by
  unfold dataframeB at h
  unfold oscB oscBSetup
  dsimp only
  simp only [PyM.run_bind, run_get, run_liftM, run_modify]
  rw [show (BasisSet.init l 2 np : BasisSet ℂ).l = l from rfl, h]

end QS.TwoDim
