import Verif.Count.Wrap
import Verif.Count.OnOffProps

/-!
# C216: the compiled counting routines, called from Python
-/

namespace Verif.OnOff.Wrap

/-! ## Lemmas -/

theorem wrap32_of {z : ℤ} (h : -2 ^ 31 ≤ z) (h' : z < 2 ^ 31) : wrap32 z = z := by
  unfold wrap32
  rw [Int.bmod_eq_of_le (by norm_num; omega) (by norm_num; omega)]

theorem wrap32_range (z : ℤ) : -2 ^ 31 ≤ wrap32 z ∧ wrap32 z < 2 ^ 31 := by
  unfold wrap32
  have h1 := Int.le_bmod (x := z) (m := 2 ^ 32) (by norm_num)
  have h2 := Int.bmod_lt (x := z) (m := 2 ^ 32) (by norm_num)
  norm_num at h1 h2 ⊢
  omega

theorem fromLong_of (junk : ℤ → ℤ) {z : ℤ} (h : -2 ^ 31 ≤ z) (h' : z < 2 ^ 31) : fromLong junk z = z := by
  unfold fromLong
  rw [if_pos (by omega), wrap32_of h h']

/-- What the arrays of both models have in common. -/
def Same (c : Arr) (d : ℕ → ℝ) (p : ℕ → Prop) : Prop := ∀ k : ℕ, p k → c.v k = d k

theorem has_iff (c : Arr) (h0 : c.lo = 0) (i : ℤ) : c.has i = true ↔ 0 ≤ i ∧ i < c.size := by
  simp [Arr.has, h0]

theorem get_some (c : Arr) (h0 : c.lo = 0) {i : ℤ} (h : 0 ≤ i) (h' : i < c.size) : c.get i = some (c.v i) := by
  unfold Arr.get
  rw [if_pos ((has_iff c h0 i).mpr ⟨h, h'⟩)]

theorem set_some (c : Arr) (h0 : c.lo = 0) {i : ℤ} (h : 0 ≤ i) (h' : i < c.size) (x : ℝ) : c.set i x = some { c with v := Function.update c.v i x } := by
  unfold Arr.set
  rw [if_pos ((has_iff c h0 i).mpr ⟨h, h'⟩)]

theorem same_update {c : Arr} {d : ℕ → ℝ} {p : ℕ → Prop} (h : Same c d p) (i : ℕ) (x : ℝ) : Same { c with v := Function.update c.v (i : ℤ) x } (Function.update d i x) (fun k => p k ∨ k = i) := by
  intro k hk
  by_cases hki : k = i
  · subst hki; simp
  · simp only
    rw [Function.update_of_ne (by exact_mod_cast hki), Function.update_of_ne hki]
    exact h k (hk.resolve_right hki)

theorem downZ_spec (tfac n : ℝ) (non : ℕ) : ∀ (r : ℕ) (c : Arr) (d : ℕ → ℝ) (sum : ℝ) (p : ℕ → Prop), c.lo = 0 → (r : ℤ) < c.size → Same c d p → p r →
    ∃ c', downZ tfac n non r ((r : ℤ) - 1) (c, sum) = some (c', (downC tfac n non r (d, sum)).2) ∧ c'.lo = 0 ∧ c'.size = c.size ∧ Same c' (downC tfac n non r (d, sum)).1 (fun k => p k ∨ k < r) := by
  intro r
  induction r with
  | zero => intro c d sum p h0 _ hs _; exact ⟨c, rfl, h0, rfl, fun k hk => hs k (hk.resolve_right (by omega))⟩
  | succ r ih =>
    intro c d sum p h0 hr hs hp
    push_cast at hr
    have e2 : ((r + 1 : ℕ) : ℤ) - 1 = (r : ℤ) := by push_cast; ring
    have g1 : c.get ((r : ℤ) + 1) = some (c.v ((r + 1 : ℕ) : ℤ)) := by
      have := get_some c h0 (i := (r : ℤ) + 1) (by omega) (by omega)
      rw [this]; push_cast; rfl
    have hv := hs (r + 1) hp
    have hs' := same_update hs r (c.v ((r + 1 : ℕ) : ℤ) * (((n - r) / (non - r)) / tfac))
    obtain ⟨c', e, h1, h2, h3⟩ := ih _ _ (sum + c.v ((r + 1 : ℕ) : ℤ) * (((n - r) / (non - r)) / tfac)) _ (by exact h0) (by simp only; omega) hs' (Or.inr rfl)
    refine ⟨c', ?_, h1, h2, ?_⟩
    · unfold downZ downC
      simp only [e2, g1, bind, Option.bind, set_some c h0 (i := (r : ℤ)) (by omega) (by omega), Int.cast_natCast, e]
      rw [hv]
    · intro k hk
      unfold downC
      simp only
      rw [← hv]
      apply h3 k
      rcases hk with hk | hk
      · exact Or.inl (Or.inl hk)
      · by_cases hkr : k = r
        · exact Or.inl (Or.inr hkr)
        · exact Or.inr (by omega)

theorem upZ_spec (tfac n : ℝ) (non : ℕ) : ∀ (r i : ℕ) (c : Arr) (d : ℕ → ℝ) (sum : ℝ), c.lo = 0 → 1 ≤ i → ((i + r : ℕ) : ℤ) ≤ c.size → Same c d (· < i) →
    ∃ c', upZ tfac n non r (i : ℤ) (c, sum) = some (c', (upC tfac n non r i (d, sum)).2) ∧ c'.lo = 0 ∧ c'.size = c.size ∧ Same c' (upC tfac n non r i (d, sum)).1 (· < i + r) := by
  intro r
  induction r with
  | zero => intro i c d sum h0 _ _ hs; exact ⟨c, rfl, h0, rfl, hs⟩
  | succ r ih =>
    intro i c d sum h0 hi hr hs
    push_cast at hr
    have e1 : (i : ℤ) - 1 = ((i - 1 : ℕ) : ℤ) := by omega
    have g1 := get_some c h0 (i := ((i - 1 : ℕ) : ℤ)) (by omega) (by omega)
    have hv := hs (i - 1) (by omega)
    have hs' := same_update hs i (c.v ((i - 1 : ℕ) : ℤ) * (tfac * ((non - i + 1) / (n - i + 1))))
    obtain ⟨c', e, h1, h2, h3⟩ := ih (i + 1) _ _ (sum + c.v ((i - 1 : ℕ) : ℤ) * (tfac * ((non - i + 1) / (n - i + 1)))) (by exact h0) (by omega) (by simp only; push_cast; omega) (fun k hk => hs' k (by omega))
    refine ⟨c', ?_, h1, h2, ?_⟩
    · unfold upZ upC
      push_cast at e
      simp only [e1, g1, bind, Option.bind, set_some c h0 (i := (i : ℤ)) (by omega) (by omega), Int.cast_natCast, e]
      rw [hv]
    · intro k hk
      unfold upC
      simp only
      rw [← hv]
      exact h3 k (by omega)

theorem normZ_spec (sum : ℝ) : ∀ (r i : ℕ) (c : Arr), c.lo = 0 → ((i + r : ℕ) : ℤ) ≤ c.size →
    ∃ c', normZ sum r (i : ℤ) c = some c' ∧ c'.lo = 0 ∧ c'.size = c.size ∧ ∀ k : ℕ, c'.v k = if i ≤ k ∧ k < i + r then c.v k / sum else c.v k := by
  intro r
  induction r with
  | zero => intro i c h0 _; exact ⟨c, rfl, h0, rfl, fun k => by rw [if_neg (by omega)]⟩
  | succ r ih =>
    intro i c h0 hr
    push_cast at hr
    obtain ⟨c', e, h1, h2, h3⟩ := ih (i + 1) { c with v := Function.update c.v (i : ℤ) (c.v i / sum) } (by exact h0) (by simp only; push_cast; omega)
    refine ⟨c', ?_, h1, h2, fun k => ?_⟩
    · unfold normZ
      push_cast at e
      simp only [get_some c h0 (i := (i : ℤ)) (by omega) (by omega), bind, Option.bind, set_some c h0 (i := (i : ℤ)) (by omega) (by omega), e]
    · rw [h3 k]
      simp only
      by_cases hki : k = i
      · subst hki
        rw [if_neg (by omega), if_pos (by omega), Function.update_self]
      · rw [Function.update_of_ne (by exact_mod_cast hki)]
        by_cases hc : i ≤ k ∧ k < i + (r + 1)
        · rw [if_pos hc, if_pos (by omega)]
        · rw [if_neg hc, if_neg (by omega)]

/-- On an array of the right size the routine stays inside it, for any number of counts off source. -/
theorem sigctpZ_some (non : ℕ) (ton : ℝ) (noff : ℤ) (toff : ℝ) (mem : ℤ → ℝ) : ∃ c', sigctpZ non ton noff toff ⟨0, (non : ℤ) + 1, mem⟩ = some c' ∧ c'.size = (non : ℤ) + 1 ∧
    ∀ m : ℕ, noff = m → c'.list = sigctp non ton m toff := by
  set mode := min (max (trunc ((non : ℤ) - ton * noff / toff + 1)) 0) (non : ℤ) with hm
  have h0 : 0 ≤ mode := le_min (le_max_right _ _) (by omega)
  have h1 : mode ≤ non := min_le_right _ _
  obtain ⟨M, hM⟩ := Int.eq_ofNat_of_zero_le h0
  set c0 : Arr := ⟨0, (non : ℤ) + 1, Function.update mem mode 1⟩ with hc0
  have hs0 : Same c0 (Function.update (fun _ => 0) M 1) (· = M) := by
    rintro k rfl
    simp [hc0, hM]
  obtain ⟨c1, e1, l1, z1, s1⟩ := downZ_spec (1 + toff / ton) (((non : ℤ) : ℝ) + noff) non M c0 _ 1 _ rfl (by simp only [hc0]; omega) hs0 rfl
  set st := downC (1 + toff / ton) (((non : ℤ) : ℝ) + noff) non M (Function.update (fun _ => 0) M 1, 1) with hst
  obtain ⟨c2, e2, l2, z2, s2⟩ := upZ_spec (1 + toff / ton) (((non : ℤ) : ℝ) + noff) non (non - M) (M + 1) c1 st.1 st.2 l1 (by omega) (by rw [z1]; simp only [hc0]; omega) (fun k hk => s1 k (by omega))
  obtain ⟨c3, e3, l3, z3, s3⟩ := normZ_spec (upC (1 + toff / ton) (((non : ℤ) : ℝ) + noff) non (non - M) (M + 1) st).2 (non + 1) 0 c2 l2 (by rw [z2, z1]; simp [hc0])
  have hz : c3.size = (non : ℤ) + 1 := by rw [z3, z2, z1]
  refine ⟨c3, ?_, hz, ?_⟩
  · unfold sigctpZ
    simp only [← hm]
    rw [set_some _ rfl h0 (by simp only; omega)]
    simp only [bind, Option.bind]
    have t1 : mode.toNat = M := by omega
    have t2 : ((non : ℤ) - mode).toNat = non - M := by omega
    have t3 : ((non : ℤ) + 1).toNat = non + 1 := by omega
    have t4 : mode + 1 = ((M + 1 : ℕ) : ℤ) := by omega
    have t5 : mode - 1 = (M : ℤ) - 1 := by omega
    rw [t1, t2, t3, t4, t5]
    simp only [hc0] at e1
    rw [e1]
    simp only
    rw [e2]
    simpa using e3
  · rintro m rfl
    unfold Arr.list sigctp coeffsFrom
    rw [hz, l3]
    have t3 : ((non : ℤ) + 1).toNat = non + 1 := by omega
    rw [t3]
    have hidx : startIdx non ton m toff = M := by
      unfold startIdx
      have : trunc (((non : ℤ) : ℝ) - ton * ((m : ℤ) : ℝ) / toff + 1) = trunc ((non : ℝ) - ton * (m : ℝ) / toff + 1) := by norm_cast
      rw [← this, ← hm, hM]
      rfl
    rw [hidx]
    apply List.map_congr_left
    intro k hk
    have hk' := List.mem_range.mp hk
    rw [zero_add, s3 k, if_pos (by omega), s2 k (by omega)]
    simp [hst]

/-! ## Theorems -/

/-- **C216, counts that fit.**  For counts from zero to `2 ^ 31 - 2` on and up to `2 ^ 31 - 1` off source the routine returns the probabilities of C59, whatever memory holds, and touches no memory outside the result. -/
theorem C216_sigctp (junk : ℤ → ℤ) (mem : ℤ → ℝ) (non noff : ℕ) (ton toff : ℝ) (h : non < 2 ^ 31 - 1) (h' : noff < 2 ^ 31) :
    sigctpW junk mem (.int non) ton (.int noff) toff = .ok (sigctp non ton noff toff) := by
  have e1 : intOf junk (.int non) = .ok (non : ℤ) := by rw [intOf, fromLong_of] <;> omega
  have e2 : intOf junk (.int noff) = .ok (noff : ℤ) := by rw [intOf, fromLong_of] <;> omega
  have e3 : wrap32 ((non : ℤ) + 1) = non + 1 := wrap32_of (by omega) (by omega)
  obtain ⟨c, ec, -, hl⟩ := sigctpZ_some non ton noff toff mem
  unfold sigctpW
  simp only [e1, e2, e3]
  rw [if_neg (by omega), ec]
  simp only [hl noff rfl]

/-- **C216, bounds** (partial).  Whatever is given as counts and intervals, the routine stays inside the array it was given unless the count on source becomes `-1`.  Missing: that count (`C216_violated_bounds`). -/
theorem C216_bounds_partial (junk : ℤ → ℤ) (mem : ℤ → ℝ) (non noff : Arg) (ton toff : ℝ) (h : intOf junk non ≠ .ok (-1)) : sigctpW junk mem non ton noff toff ≠ .fault := by
  have hr : ∀ a z, intOf junk a = .ok z → -2 ^ 31 ≤ z ∧ z < 2 ^ 31 := by
    intro a
    induction a with
    | int z => intro y hy; simp only [intOf, fromLong, Except.ok.injEq] at hy; subst hy; split <;> exact wrap32_range _
    | float x => intro y hy; simp only [intOf, fromLong, Except.ok.injEq] at hy; subst hy; split <;> exact wrap32_range _
    | seq a ih => exact ih
    | empty => intro y hy; cases hy
    | other => intro y hy; cases hy
  unfold sigctpW
  rcases h1 : intOf junk non with e | n
  · simp
  · rcases h2 : intOf junk noff with e | m
    · simp
    · simp only
      obtain ⟨b1, b2⟩ := hr _ _ h1
      have hne : n ≠ -1 := by rintro rfl; exact h h1
      split
      · simp
      · rename_i hd
        by_cases hn : n = 2 ^ 31 - 1
        · subst hn
          exact absurd (by decide) hd
        · rw [wrap32_of (by omega) (by omega)] at hd ⊢
          obtain ⟨N, rfl⟩ := Int.eq_ofNat_of_zero_le (a := n) (by omega)
          obtain ⟨c, ec, -⟩ := sigctpZ_some N ton m toff mem
          simp [ec]

/-- **C216 is violated: bounds.**  A count of minus one on source, for any intervals and any count off source, writes before an array of no elements. -/
theorem C216_violated_bounds (junk : ℤ → ℤ) (mem : ℤ → ℝ) (noff : ℤ) (ton toff : ℝ) : sigctpW junk mem (.int (-1)) ton (.int noff) toff = .fault := by
  unfold sigctpW
  have e1 : intOf junk (.int (-1)) = .ok (-1) := by rw [intOf, fromLong_of] <;> norm_num
  have e2 : wrap32 (-1 + 1) = 0 := by decide
  have e3 : intOf junk (.int noff) = .ok (fromLong junk noff) := rfl
  simp only [e1, e3, e2]
  rw [if_neg (by omega)]
  have : ∀ (m : ℤ), sigctpZ (-1) ton m toff ⟨0, 0, mem⟩ = none := by
    intro m
    unfold sigctpZ
    simp only [bind, Option.bind]
    rw [show Arr.set ⟨0, 0, mem⟩ (min (max (trunc (((-1 : ℤ) : ℝ) - ton * m / toff + 1)) 0) (-1)) 1 = none by
      unfold Arr.set
      rw [if_neg]
      rw [has_iff _ rfl]
      simp only
      omega]
  simp [this]

/-- **C216 is violated: large counts.**  Counts are taken modulo `2 ^ 32` without a word: with `2 ^ 32` more counts on source the result is the same, and so is not one longer than their number. -/
theorem C216_violated_large (junk : ℤ → ℤ) (mem : ℤ → ℝ) (non noff : ℕ) (ton toff : ℝ) (h : non < 2 ^ 31 - 1) (h' : noff < 2 ^ 31) :
    sigctpW junk mem (.int (non + 2 ^ 32)) ton (.int noff) toff = .ok (sigctp non ton noff toff) ∧ (sigctp non ton noff toff).length ≠ non + 2 ^ 32 + 1 := by
  refine ⟨?_, ?_⟩
  · rw [← C216_sigctp junk mem non noff ton toff h h']
    have : intOf junk (.int ((non : ℤ) + 2 ^ 32)) = intOf junk (.int non) := by
      simp only [intOf, fromLong]
      rw [if_pos (by omega), if_pos (by omega)]
      unfold wrap32
      rw [show ((non : ℤ) + 2 ^ 32) = (non : ℤ) + ((2 ^ 32 : ℕ) : ℤ) by norm_num, Int.add_bmod_right]
    unfold sigctpW
    rw [this]
  · simp [sigctp, coeffsFrom]

/-- **C216 is violated: fractions.**  A count that is not a whole number is cut to one without a word. -/
theorem C216_violated_fraction (junk : ℤ → ℤ) (mem : ℤ → ℝ) (non noff : ℕ) (ton toff f : ℝ) (h0 : 0 ≤ f) (h1 : f < 1) :
    sigctpW junk mem (.float (non + f)) ton (.int noff) toff = sigctpW junk mem (.int non) ton (.int noff) toff := by
  have : trunc ((non : ℝ) + f) = non := by
    unfold trunc
    rw [if_pos (by positivity), Int.floor_eq_iff]
    push_cast
    exact ⟨by linarith, by linarith⟩
  unfold sigctpW
  rw [show intOf junk (.float (non + f)) = intOf junk (.int non) by simp only [intOf, this]]

theorem psigcZ_spec (g : ℝ → ℝ) (ton st : ℝ) (c : List ℝ) : ∀ (r i : ℕ) (t : Table) (p : ℝ), i + r ≤ c.length → psigcZ g ton st c r i t p = some (psigcLoop g ton st t i p ((c.drop i).take r)) := by
  intro r
  induction r with
  | zero => intro i t p _; simp [psigcZ, psigcLoop]
  | succ r ih =>
    intro i t p h
    have hi : i < c.length := by omega
    rw [psigcZ, List.getElem?_eq_getElem hi, List.drop_eq_getElem_cons hi]
    simp only [List.take_succ_cons, psigcLoop]
    exact ih _ _ _ (by omega)

/-- **C216, densities.**  `psigc` never leaves its array: with all coefficients, or with a number given that is less than theirs, it returns the sum over the coefficients up to this number, and otherwise it raises. -/
theorem C216_psigc (g : ℝ → ℝ) (junk : ℤ → ℤ) (t : Table) (s ton : ℝ) (c : List ℝ) :
    psigcW g junk t s ton c none = .ok (psigc g t s ton c) ∧
    (∀ a n, intOf junk a = .ok n → psigcW g junk t s ton c (some a) = if n < c.length then .ok (psigc g t s ton (c.take (n + 1).toNat)) else .exc .value) ∧
    ∀ a e, intOf junk a = .error e → psigcW g junk t s ton c (some a) = .exc e := by
  refine ⟨?_, ?_, ?_⟩
  · unfold psigcW
    simp only [ge_iff_le, le_refl, if_true]
    rw [psigcZ_spec _ _ _ _ _ _ _ _ (by omega)]
    simp [psigc]
  · intro a n ha
    unfold psigcW
    simp only [ha]
    by_cases hn : n < c.length
    · rw [if_pos (by omega), if_pos hn, psigcZ_spec _ _ _ _ _ _ _ _ (by omega)]
      simp [psigc]
    · rw [if_neg (by omega), if_neg hn]
  · intro a e ha
    unfold psigcW
    simp only [ha]

/-- The elements a vector routine works on: number `i` of each of the arrays. -/
theorem offsetLoop_spec (g : ℝ → ℝ) (non noff : List ℕ) (ton toff : ℝ) (size : ℕ) : ∀ (r i : ℕ), i + r ≤ size → size ≤ non.length → size ≤ noff.length →
    offsetLoop g non ton noff toff size r i = some (List.zipWith (fun a b => slmlOffset g a ton b toff) ((non.drop i).take r) ((noff.drop i).take r)) := by
  intro r
  induction r with
  | zero => intro i _ _ _; simp [offsetLoop]
  | succ r ih =>
    intro i h h1 h2
    have hi : i < non.length := by omega
    have hj : i < noff.length := by omega
    rw [offsetLoop, List.getElem?_eq_getElem hi, List.getElem?_eq_getElem hj, List.drop_eq_getElem_cons hi, List.drop_eq_getElem_cons hj]
    simp only [bind, Option.bind, if_pos (show i < size by omega), ih (i + 1) (by omega) h1 h2, List.take_succ_cons, List.zipWith_cons_cons]

/-- **C216, vectors of offsets.**  Without `nc`, vectors of the same length give the vector of the results of the scalar routine, element by element, and vectors of different lengths raise; with `nc` given it must not exceed the length of the
first vector and must be the length of the second, or the routine raises.  It never leaves an array. -/
theorem C216_offsets (g : ℝ → ℝ) (junk : ℤ → ℤ) (non noff : List ℕ) (ton toff : ℝ) :
    (vslmlOffsetW g junk non ton noff toff none = if non.length = noff.length then .ok (List.zipWith (fun a b => slmlOffset g a ton b toff) non noff) else .exc .value) ∧
    ∀ a n, intOf junk a = .ok n → vslmlOffsetW g junk non ton noff toff (some a) =
      if 0 ≤ n ∧ n ≤ non.length ∧ n = noff.length then .ok (List.zipWith (fun a b => slmlOffset g a ton b toff) (non.take n.toNat) noff) else .exc .value := by
  constructor
  · unfold vslmlOffsetW
    simp only [ge_iff_le, le_refl, if_true, accepts, Bool.or_eq_true, decide_eq_true_eq]
    by_cases h : non.length = noff.length
    · rw [if_pos (Or.inr (by exact_mod_cast h)), if_neg (by omega), if_pos h, offsetLoop_spec _ _ _ _ _ _ _ _ (by omega) (by omega) (by omega)]
      simp only [List.drop_zero, Int.toNat_natCast, List.take_length]
      rw [h, List.take_length]
    · rw [if_neg (by push Not; exact ⟨by omega, by exact_mod_cast h⟩), if_neg h]
  · intro a n ha
    unfold vslmlOffsetW
    simp only [ha, ge_iff_le, accepts, Bool.or_eq_true, decide_eq_true_eq]
    by_cases h1 : n ≤ non.length
    · rw [if_pos h1]
      by_cases h2 : n < 0
      · rw [if_pos (Or.inl h2), if_pos h2, if_neg (by omega)]
      · by_cases h3 : n = noff.length
        · rw [if_pos (Or.inr h3), if_neg h2, if_pos ⟨by omega, h1, h3⟩, offsetLoop_spec _ _ _ _ _ _ _ _ (by omega) (by omega) (by omega)]
          simp [h3]
        · rw [if_neg (by push Not; exact ⟨by omega, h3⟩), if_neg (by tauto)]
    · rw [if_neg h1, if_neg (by tauto)]

/-- The results of the scalar routine for the elements of four vectors. -/
noncomputable def likes (g : ℝ → ℝ) (ton toff cut : ℝ) (s : List ℝ) (non noff : List ℕ) (offset : List ℝ) : List SlOut :=
  List.zipWith (fun (p : ℝ × ℕ) (q : ℕ × ℝ) => slmlike g p.1 p.2 ton q.1 toff q.2 cut) (s.zip non) (noff.zip offset)

theorem likeLoop_spec (g : ℝ → ℝ) (s : List ℝ) (non noff : List ℕ) (offset : List ℝ) (ton toff cut : ℝ) (size : ℕ) : ∀ (r i : ℕ), i + r ≤ size → size ≤ s.length → size ≤ non.length → size ≤ noff.length → size ≤ offset.length →
    likeLoop g s non ton noff toff offset cut size r i = some ((likes g ton toff cut ((s.drop i).take r) ((non.drop i).take r) ((noff.drop i).take r) ((offset.drop i).take r)).map (·.ll)) := by
  intro r
  induction r with
  | zero => intro i _ _ _ _ _; simp [likeLoop, likes]
  | succ r ih =>
    intro i h h0 h1 h2 h3
    have a0 : i < s.length := by omega
    have a1 : i < non.length := by omega
    have a2 : i < noff.length := by omega
    have a3 : i < offset.length := by omega
    rw [likeLoop, List.getElem?_eq_getElem a0, List.getElem?_eq_getElem a1, List.getElem?_eq_getElem a2, List.getElem?_eq_getElem a3, List.drop_eq_getElem_cons a0, List.drop_eq_getElem_cons a1, List.drop_eq_getElem_cons a2, List.drop_eq_getElem_cons a3]
    simp only [bind, Option.bind, if_pos (show i < size by omega), ih (i + 1) (by omega) h0 h1 h2 h3, List.take_succ_cons, likes, List.zip_cons_cons, List.zipWith_cons_cons, List.map_cons]

/-- **C216, vectors of likelihoods** (partial).  Without `nc`, vectors of the same length give the values of the scalar routine element by element and vectors of different lengths raise; the routine never leaves an array.
Missing: the error flags of the elements (`C216_violated_flag`). -/
theorem C216_vector_partial (g : ℝ → ℝ) (junk : ℤ → ℤ) (s : List ℝ) (non noff : List ℕ) (offset : List ℝ) (ton toff cut : ℝ) :
    (vslmlikeW g junk s non ton noff toff offset cut none =
      if s.length = non.length ∧ s.length = noff.length ∧ s.length = offset.length then .ok ((likes g ton toff cut s non noff offset).map (·.ll)) else .exc .value) ∧
    ∀ nc, vslmlikeW g junk s non ton noff toff offset cut nc ≠ .fault := by
  constructor
  · unfold vslmlikeW
    simp only [ge_iff_le, le_refl, if_true, accepts, Bool.or_eq_true, Bool.and_eq_true, decide_eq_true_eq]
    by_cases h : s.length = non.length ∧ s.length = noff.length ∧ s.length = offset.length
    · obtain ⟨h1, h2, h3⟩ := h
      rw [if_pos ⟨⟨Or.inr (by exact_mod_cast h1), Or.inr (by exact_mod_cast h2)⟩, Or.inr (by exact_mod_cast h3)⟩, if_neg (by omega), if_pos ⟨h1, h2, h3⟩, likeLoop_spec _ _ _ _ _ _ _ _ _ _ _ (by omega) (by omega) (by omega) (by omega) (by omega)]
      simp only [List.drop_zero, Int.toNat_natCast, List.take_length]
      rw [h1, List.take_length, ← h1, h2, List.take_length, ← h2, h3, List.take_length]
    · rw [if_neg h, if_neg]
      intro hc
      apply h
      omega
  · intro nc
    unfold vslmlikeW
    split
    · simp
    · rename_i n _
      split
      · split
        · split
          · simp
          · rename_i h1 h2 h3
            simp only [accepts, Bool.or_eq_true, Bool.and_eq_true, decide_eq_true_eq] at h2
            rw [likeLoop_spec _ _ _ _ _ _ _ _ _ _ _ (by omega) (by omega) (by omega) (by omega) (by omega)]
            simp
        · simp
      · simp

/-- **C216 is violated: error flags.**  With an exact log gamma function, a signal of 1000 with no counts: the scalar routine sets the error flag and no value, the vector routine returns an element that was never set and raises nothing. -/
theorem C216_violated_flag {g : ℝ → ℝ} (hg : Exact g) (junk : ℤ → ℤ) :
    (slmlike g 1000 0 1 0 1 0 0).ierr = 1 ∧ vslmlikeW g junk [1000] [0] 1 [0] 1 [0] 0 none = .ok [none] := by
  have key : slmlike g 1000 0 1 0 1 0 0 = ⟨none, 1, 1⟩ := by
    obtain ⟨m, lo, hi, A, hA, hE, hm, -, -, -, -, -, h1, -⟩ := C60_series (g := g) (s := 1000) (ton := 1) (toff := 1) (offset := 0) (cut := 0) (by norm_num) (by norm_num) (by norm_num) le_rfl 0 0
    obtain rfl : m = 0 := by omega
    rw [hE hg] at h1
    have ht : trm (1000 * (1 + 1)) 0 0 0 = 1 := by norm_num [trm]
    rw [ht, mul_one, Real.log_exp] at h1
    obtain ⟨h2, h3⟩ := h1 (Or.inl (by norm_num))
    unfold slmlike at h2 h3 ⊢
    rw [if_neg (by norm_num), if_neg (by norm_num)] at h2 h3 ⊢
    dsimp only at h2 h3 ⊢
    split at h2
    · rw [if_pos (by assumption)]
    · cases h2
  refine ⟨by rw [key], ?_⟩
  rw [(C216_vector_partial g junk _ _ _ _ _ _ _).1]
  simp [likes, key]

/-- Three counts on and two off source. -/
example (junk : ℤ → ℤ) (mem : ℤ → ℝ) : sigctpW junk mem (.int (3 : ℕ)) 1 (.int (2 : ℕ)) 2 = .ok (sigctp 3 1 2 2) := C216_sigctp junk mem 3 2 1 2 (by norm_num) (by norm_num)

example (junk : ℤ → ℤ) : intOf junk (.int 3) ≠ .ok (-1) := by
  rw [intOf, fromLong_of] <;> simp

end Verif.OnOff.Wrap
