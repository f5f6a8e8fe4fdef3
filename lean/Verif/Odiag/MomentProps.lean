import Verif.Odiag.Moments
import Verif.Odiag.BurgProps
import Mathlib.Algebra.BigOperators.Ring.List
import Mathlib.Data.List.Range
import Mathlib.Tactic.IntervalCases

/-!
# Properties C175-C176: the moments of a Markov chain
-/

set_option linter.unusedSectionVars false

noncomputable section

namespace Verif.Odiag

/-- The number of a term x^m y^n in the table: order by order, and within an order by the power of y. -/
def termNo (m n : ℕ) : ℕ := (m + n) * (m + n + 1) / 2 + n

theorem tri_even (o : ℕ) : 2 * (o * (o + 1) / 2) = o * (o + 1) := Nat.two_mul_div_two_of_even (Nat.even_mul_succ_self o)

theorem tri3_even (o : ℕ) : o * (o + 3) / 2 = o * (o + 1) / 2 + o := by
  have h := tri_even o
  have : o * (o + 3) = o * (o + 1) + 2 * o := by ring
  omega

/-- The order computed by `cfuns` is that of the term. -/
theorem order_eq (o j : ℕ) (hj : j ≤ o) : ⌊0.5 * (√(1 + 8 * ((o * (o + 1) / 2 + j : ℕ) : ℝ)) - 1)⌋₊ = o := by
  have hT : ((o * (o + 1) / 2 : ℕ) : ℝ) = o * (o + 1) / 2 := by
    have := tri_even o
    have : (2 : ℝ) * ((o * (o + 1) / 2 : ℕ) : ℝ) = o * (o + 1) := by exact_mod_cast this
    linarith
  have hjr : (j : ℝ) ≤ o := by exact_mod_cast hj
  have hj0 : (0 : ℝ) ≤ j := Nat.cast_nonneg j
  have ho0 : (0 : ℝ) ≤ o := Nat.cast_nonneg o
  have h1 : (2 * o + 1 : ℝ) ≤ √(1 + 8 * ((o * (o + 1) / 2 + j : ℕ) : ℝ)) := by
    apply Real.le_sqrt_of_sq_le
    push_cast [hT]
    nlinarith
  have h2 : √(1 + 8 * ((o * (o + 1) / 2 + j : ℕ) : ℝ)) < 2 * o + 3 := by
    rw [Real.sqrt_lt' (by linarith)]
    push_cast [hT]
    nlinarith
  rw [Nat.floor_eq_iff (by linarith)]
  constructor <;> linarith

/-- C175: the term with number i is x^m y^n with i = (m+n)(m+n+1)/2 + n, as in the table. -/
theorem C175_table (m n : ℕ) (x y : ℝ) : cfuns (termNo m n) x y = x ^ m * y ^ n := by
  by_cases h0 : m + n = 0
  · obtain ⟨rfl, rfl⟩ : m = 0 ∧ n = 0 := by omega
    simp [cfuns, termNo]
  · have hT := tri_even (m + n)
    have hpos : 0 < (m + n) * (m + n + 1) / 2 := by
      have : 2 ≤ (m + n) * (m + n + 1) := by nlinarith [Nat.pos_of_ne_zero h0]
      omega
    have hi : termNo m n ≠ 0 := by rw [termNo]; omega
    have ho := order_eq (m + n) n (by omega)
    have hm : (m + n) * (m + n + 3) / 2 - termNo m n = m := by rw [tri3_even, termNo]; omega
    simp only [cfuns, if_neg hi]
    rw [show ⌊0.5 * (√(1 + 8 * ((termNo m n : ℕ) : ℝ)) - 1)⌋₊ = m + n from ho, hm, Nat.add_sub_cancel_left]
    split_ifs with h1 h2
    · rw [h1]; simp
    · rw [h2]; simp
    · rfl

/-- C175: every term has one number, and every number is that of a term. -/
theorem C175_bijective (i : ℕ) : ∃! q : ℕ × ℕ, termNo q.1 q.2 = i := by
  have key : ∃ o, o * (o + 1) / 2 ≤ i ∧ i < (o + 1) * (o + 2) / 2 := by
    induction i with
    | zero => exact ⟨0, by simp, by norm_num⟩
    | succ i ih =>
        obtain ⟨o, h1, h2⟩ := ih
        by_cases h : i + 1 < (o + 1) * (o + 2) / 2
        · exact ⟨o, by omega, h⟩
        · refine ⟨o + 1, by rw [show o + 1 + 1 = o + 2 by ring]; omega, ?_⟩
          have e1 := tri_even (o + 1)
          have e2 := tri_even (o + 2)
          have : (o + 2) * (o + 2 + 1) = (o + 1) * (o + 1 + 1) + 2 * (o + 2) := by ring
          rw [show o + 1 + 1 = o + 2 by ring] at *
          rw [show o + 1 + 2 = o + 2 + 1 by ring]
          omega
  obtain ⟨o, h1, h2⟩ := key
  have e1 := tri_even o
  have e2 := tri_even (o + 1)
  have e3 : (o + 1) * (o + 1 + 1) = o * (o + 1) + 2 * (o + 1) := by ring
  rw [show o + 1 + 1 = o + 2 by ring] at *
  refine ⟨(o - (i - o * (o + 1) / 2), i - o * (o + 1) / 2), ?_, ?_⟩
  · simp only [termNo]
    rw [show o - (i - o * (o + 1) / 2) + (i - o * (o + 1) / 2) = o by omega]
    omega
  · rintro ⟨m, n⟩ h
    simp only [termNo] at h
    have hmn : m + n = o := by
      have f1 := tri_even (m + n)
      rcases lt_trichotomy (m + n) o with hlt | heq | hgt
      · exfalso
        have : (m + n + 1) * (m + n + 2) ≤ o * (o + 1) := Nat.mul_le_mul (by omega) (by omega)
        have e : (m + n + 1) * (m + n + 2) = (m + n) * (m + n + 1) + 2 * (m + n + 1) := by ring
        omega
      · exact heq
      · exfalso
        have : (o + 1) * (o + 2) ≤ (m + n) * (m + n + 1) := Nat.mul_le_mul (by omega) (by omega)
        omega
    rw [hmn] at h
    refine Prod.ext ?_ ?_ <;> simp only <;> omega

/-- C175: the moments computed for an order are those of all terms of order 1 to that order.

Missing: moments in one dimension (`C175_violated_onedim`). -/
theorem C175_complete_partial (ord m n : ℕ) : (1 ≤ termNo m n ∧ termNo m n ≤ nmomOf ord) ↔ 1 ≤ m + n ∧ m + n ≤ ord := by
  have f1 := tri_even (m + n)
  have f2 := tri_even ord
  rw [nmomOf, tri3_even, termNo]
  constructor
  · rintro ⟨h1, h2⟩
    refine ⟨?_, ?_⟩
    · by_contra h
      obtain ⟨rfl, rfl⟩ : m = 0 ∧ n = 0 := by omega
      simp at h1
    · by_contra h
      have : (ord + 1) * (ord + 2) ≤ (m + n) * (m + n + 1) := Nat.mul_le_mul (by omega) (by omega)
      have e : (ord + 1) * (ord + 2) = ord * (ord + 1) + 2 * (ord + 1) := by ring
      omega
  · rintro ⟨h1, h2⟩
    have : 1 * 2 ≤ (m + n) * (m + n + 1) := Nat.mul_le_mul h1 (by omega)
    refine ⟨by omega, ?_⟩
    rcases Nat.lt_or_ge (m + n) ord with h | h
    · have : (m + n + 1) * (m + n + 2) ≤ ord * (ord + 1) := Nat.mul_le_mul (by omega) (by omega)
      have e : (m + n + 1) * (m + n + 2) = (m + n) * (m + n + 1) + 2 * (m + n + 1) := by ring
      omega
    · have : m + n = ord := by omega
      rw [this]; omega

/-- C175: the seventh term is x²y, as the source says. -/
theorem C175_seventh (x y : ℝ) : cfuns 7 x y = x ^ 2 * y := by
  have := C175_table 2 1 x y
  rwa [show termNo 2 1 = 7 by decide, pow_one] at this

/-- C175 fails in one dimension: the same terms are used, and the second moment is the mean of an array that is never assigned, whatever the samples. -/
theorem C175_violated_onedim (junk xv yv : ℕ → ℝ) (t : ℕ) : momVals 1 junk xv yv 2 t = junk t := by
  have := C175_table 0 1 (xv t) (junk t)
  simpa [momVals, show termNo 0 1 = 2 by decide] using this

/-! ## C176: samples and averages -/

/-- C176: the runs used are as many of the first runs in the file as there are runs in equilibrium. -/
theorem C176_runs {α : Type} (eq : List Bool) (file : List α) : runsUsed eq file = file.take (eq.count true) := by
  induction eq generalizing file with
  | nil => simp [runsUsed]
  | cons b eq ih =>
      cases b
      · rw [runsUsed, ih]; simp
      · cases file with
        | nil => simp [runsUsed]
        | cons r file => rw [runsUsed, ih]; simp

/-- C176: these are the runs in equilibrium if no such run comes after one that is not.

Missing: other sequences of runs (`C176_violated_runs`). -/
theorem C176_equilibrium_partial {α : Type} (j k : ℕ) (file : List α) (h : file.length = j + k) :
    runsUsed (List.replicate j true ++ List.replicate k false) file
      = (((List.replicate j true ++ List.replicate k false).zip file).filter (·.1)).map (·.2) := by
  rw [C176_runs, List.count_append, List.count_replicate_self, List.count_replicate, if_neg (by simp), Nat.add_zero]
  obtain ⟨f1, f2, rfl, h1⟩ : ∃ f1 f2, file = f1 ++ f2 ∧ f1.length = j :=
    ⟨file.take j, file.drop j, (List.take_append_drop j file).symm, by rw [List.length_take]; omega⟩
  rw [List.take_left' h1, List.zip_append (by simp [h1]), List.filter_append, List.map_append]
  have e1 : ∀ (f : List α), ((((List.replicate f.length true).zip f).filter (·.1)).map (·.2)) = f := by
    intro f
    induction f with
    | nil => rfl
    | cons a f ih => simp [List.replicate_succ, ih]
  have e2 : ∀ (n : ℕ) (f : List α), ((((List.replicate n false).zip f).filter (·.1)).map (·.2)) = [] := by
    intro n f
    induction n generalizing f with
    | zero => rfl
    | succ n ih =>
        cases f with
        | nil => rfl
        | cons a f => simp [List.replicate_succ, ih]
  rw [← h1, e1, e2, List.append_nil]

/-- C176 fails when a run that is not in equilibrium comes first: its samples are used in the place of those of the run that is. -/
theorem C176_violated_runs {α : Type} (bad good : α) : runsUsed [false, true] [bad, good] = [bad] := rfl

/-- C176: the samples kept of a run are those at multiples of the spacing; as many as fit. -/
theorem C176_kept {skip nt : ℕ} {l : List ℕ} (h : kept skip nt = some l) : (∀ t, t ∈ l ↔ 1 ≤ t ∧ t ≤ nt ∧ skip ∣ t) ∧ l.length = nt / skip := by
  simp only [kept] at h
  split_ifs at h with h0
  obtain rfl := Option.some.inj h
  constructor
  · intro t
    rw [List.mem_filter, List.mem_range'_1, decide_eq_true_eq, Nat.dvd_iff_mod_eq_zero]
    constructor
    · rintro ⟨⟨a, b⟩, c⟩; exact ⟨a, by omega, c⟩
    · rintro ⟨a, b, c⟩; exact ⟨⟨a, by omega⟩, c⟩
  · induction nt with
    | zero => simp
    | succ nt ih =>
        rw [List.range'_concat, List.filter_append, List.length_append]
        rw [ih rfl, Nat.succ_div]
        have e : 1 + 1 * nt = nt + 1 := by ring
        rw [e]
        by_cases hd : skip ∣ nt + 1
        · rw [if_pos hd]; simp [Nat.dvd_iff_mod_eq_zero.1 hd]
        · rw [if_neg hd]; simp [mt Nat.dvd_iff_mod_eq_zero.2 hd]

/-- C176: the spacing is at least the correlation length rounded down, and fewer than twice as many samples are kept of a run as there is room for.

Missing: that no more are kept than there is room for (`C176_violated_room`). -/
theorem C176_spacing_partial {nreq nt : ℕ} {clmax : ℝ} {l : List ℕ} (hn : 1 ≤ nreq) (hn2 : nreq ≤ 500) (h : kept (skipOf nreq nt clmax) nt = some l) :
    ⌊clmax⌋₊ ≤ skipOf nreq nt clmax ∧ l.length < 2 * (500 / nreq) := by
  have hl := (C176_kept h).2
  have hs : 0 < skipOf nreq nt clmax := by
    simp only [kept] at h
    split_ifs at h with h0
    omega
  refine ⟨le_max_left _ _, ?_⟩
  have hsp : 0 < 500 / nreq := Nat.div_pos hn2 hn
  rw [hl]
  set sper := 500 / nreq with hsper
  have h2 : nt / sper ≤ skipOf nreq nt clmax := le_max_right _ _
  rw [Nat.div_lt_iff_lt_mul hs]
  have h3 := Nat.div_add_mod nt sper
  have h4 := Nat.mod_lt nt hsp
  have h5 : sper * (nt / sper) ≤ sper * skipOf nreq nt clmax := Nat.mul_le_mul_left _ h2
  have h6 : sper * 1 ≤ sper * skipOf nreq nt clmax := Nat.mul_le_mul_left _ hs
  nlinarith

/-- C176: room is enough when the length of the run is a multiple of the samples per run.
Missing: other lengths of runs (`C176_violated_room`, `C176_violated_zero`). -/
theorem C176_room_partial {nreq nt : ℕ} {clmax : ℝ} {l : List ℕ} (hn : 1 ≤ nreq) (hn2 : nreq ≤ 500) (hd : 500 / nreq ∣ nt)
    (h : kept (skipOf nreq nt clmax) nt = some l) : l.length ≤ 500 / nreq := by
  have hl := (C176_kept h).2
  have hs : 0 < skipOf nreq nt clmax := by
    simp only [kept] at h
    split_ifs at h with h0
    omega
  have h2 : nt / (500 / nreq) ≤ skipOf nreq nt clmax := le_max_right _ _
  rw [hl]
  rw [Nat.div_le_iff_le_mul_add_pred hs]
  obtain ⟨c, rfl⟩ := hd
  have hsp : 0 < 500 / nreq := Nat.div_pos hn2 hn
  rw [Nat.mul_div_cancel_left _ hsp] at h2
  have := Nat.mul_le_mul_left (500 / nreq) h2
  nlinarith

/-- C176 fails with one run in equilibrium of 999 samples and a correlation length below two steps: all 999 samples are put in an array of 500. -/
theorem C176_violated_room {clmax : ℝ} (h : clmax < 2) : ∃ l, kept (skipOf 1 999 clmax) 999 = some l ∧ l.length = 999 ∧ 500 < l.length := by
  have hf : ⌊clmax⌋₊ < 2 := by
    rw [Nat.floor_lt' (by norm_num)]; exact_mod_cast h
  have hs : skipOf 1 999 clmax = 1 := by simp only [skipOf]; omega
  refine ⟨_, by rw [kept, hs, if_neg (by norm_num)], ?_⟩
  have e : kept 1 999 = some ((List.range' 1 999).filter fun t => t % 1 = 0) := by simp [kept]
  have := (C176_kept e).2
  omega

/-- C176 fails for a short run with a correlation length below one step: the spacing is zero and the remainder is undefined. -/
theorem C176_violated_zero {nreq nt : ℕ} {clmax : ℝ} (h : clmax < 1) (hn : nt < 500 / nreq) : kept (skipOf nreq nt clmax) nt = none := by
  have hf : ⌊clmax⌋₊ = 0 := Nat.floor_eq_zero.2 h
  simp [kept, skipOf, hf, Nat.div_eq_of_lt hn]

theorem average_fold (runs : List (Bool × ℝ × ℝ)) (s : ℝ × ℝ) :
    runs.foldl (fun (s : ℝ × ℝ) r => if r.1 then (s.1 + r.2.1, s.2 + r.2.2 ^ 2) else s) s
      = (s.1 + ((runs.filter (·.1)).map (·.2.1)).sum, s.2 + ((runs.filter (·.1)).map (·.2.2 ^ 2)).sum) := by
  induction runs generalizing s with
  | nil => simp
  | cons r runs ih =>
      rw [List.foldl_cons, ih]
      by_cases h : r.1 = true
      · simp [h, add_assoc]
      · simp [h]

/-- C176: the moment written is the mean over the runs in equilibrium; the square of its uncertainty is the mean of the squares, which is the number of runs times the variance of the mean of independent runs. -/
theorem C176_average {nreq : ℕ} {runs : List (Bool × ℝ × ℝ)} (h : (runs.filter (·.1)).length = nreq) {q : ℝ × ℝ} (hq : average nreq runs = some q) :
    q.1 = ((runs.filter (·.1)).map (·.2.1)).sum / nreq ∧ q.2 ^ 2 = nreq * (((runs.filter (·.1)).map fun r : Bool × ℝ × ℝ => (r.2.2 / (nreq : ℝ)) ^ 2).sum) := by
  simp only [average] at hq
  split_ifs at hq with h0
  obtain rfl := Option.some.inj hq
  have hn : (nreq : ℝ) ≠ 0 := by exact_mod_cast h0
  rw [average_fold]
  simp only [zero_add]
  refine ⟨trivial, ?_⟩
  rw [Real.sq_sqrt]
  · have : (((runs.filter (·.1)).map fun r => (r.2.2 / (nreq : ℝ)) ^ 2).sum) = ((runs.filter (·.1)).map (·.2.2 ^ 2)).sum / (nreq : ℝ) ^ 2 := by
      rw [div_eq_mul_inv, ← List.sum_map_mul_right]
      congr 1
      refine List.map_congr_left fun r _ => ?_
      field_simp
    rw [this]
    field_simp
  · refine div_nonneg (List.sum_nonneg fun z hz => ?_) (Nat.cast_nonneg _)
    obtain ⟨r, -, rfl⟩ := List.mem_map.1 hz
    positivity

/-- C176 fails for the uncertainty with more than one run: it is larger than that of the mean of independent runs. -/
theorem C176_violated_sigma : ∃ q, average 4 [(true, 1, 2), (true, 1, 2), (true, 1, 2), (true, 1, 2)] = some q ∧ q.2 ^ 2 = 4 ∧
    (([2, 2, 2, 2] : List ℝ).map fun s => (s / 4) ^ 2).sum = 1 := by
  refine ⟨_, by rw [average, if_neg (by norm_num)], ?_, by norm_num⟩
  norm_num

/-- C176 fails for the order written: it is that of the last autoregressive fit, whatever was requested. -/
theorem C176_violated_order (requested o : ℕ) (fits : List ℕ) : writtenOrder requested (fits ++ [o]) = o := by simp [writtenOrder]

/-- Two runs in equilibrium and one not: the hypotheses can be met. -/
example : ([(true, 1, 2), (false, 0, 0), (true, 3, 1)] : List (Bool × ℝ × ℝ)).filter (·.1) = [(true, 1, 2), (true, 3, 1)] ∧ (500 / 4 ∣ 1000) ∧ kept 3 10 = some [3, 6, 9] := by
  refine ⟨by simp, by decide, by decide⟩

end Verif.Odiag
