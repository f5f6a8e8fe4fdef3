import Verif.MC.Fill
import Verif.MC.TwisterProps
import Mathlib.Analysis.SpecialFunctions.PolarCoord
import Mathlib.MeasureTheory.Function.JacobianOneDim
import Mathlib.Analysis.SpecialFunctions.ExpDeriv
import Mathlib.Analysis.Complex.ExponentialBounds

/-!
# Properties C203-C204: bytes, seeds from a device and normal deviates
-/

set_option linter.unusedSectionVars false

namespace Verif.MC

/-! ## C203 -/

theorem byte_wide (x : BitVec 32) (k : ℕ) : byte (wide x >>> k) = BitVec.ofNat 8 (x.toNat / 2 ^ k) := by
  apply BitVec.eq_of_toNat_eq
  rw [byte, BitVec.toNat_setWidth, BitVec.toNat_and, BitVec.toNat_ushiftRight, wide_toNat, Nat.shiftRight_eq_div_pow, BitVec.toNat_ofNat,
    show 255 % 2 ^ 64 = 2 ^ 8 - 1 from rfl, Nat.and_two_pow_sub_one_eq_mod, Nat.mod_mod, BitVec.toNat_ofNat]

theorem lastBytes_wide (x : BitVec 32) (n : ℕ) : ∀ k, lastBytes n (wide x >>> k) = (List.range n).map fun i => BitVec.ofNat 8 (x.toNat / 2 ^ (k + 8 * i)) := by
  induction n with
  | zero => intro k; rfl
  | succ n ih =>
      intro k
      have e : wide x >>> k >>> 8 = wide x >>> (k + 8) := (BitVec.shiftRight_add (wide x) k 8).symm
      rw [lastBytes, byte_wide, List.range_succ_eq_map, List.map_cons, List.map_map, e, ih]
      congr 1
      refine List.map_congr_left fun i _ => ?_
      rw [Function.comp, show k + 8 + 8 * i = k + 8 * (i + 1) by ring]

/-- Specification: byte `i` of the stream from word `n` on, low bytes first. -/
def MT.streamByte (w : ℕ → ℕ) (n i : ℕ) : BitVec 8 := BitVec.ofNat 8 (w (n + i / 4) / 2 ^ (8 * (i % 4)))

theorem fill_at {key : ℕ → BitVec 32} : ∀ (size : ℕ) {n : ℕ} {s : Rk}, At key n s →
    (s.fill size).2 = (List.range size).map (MT.streamByte (MT.out key) n) ∧ At key (n + (size + 3) / 4) (s.fill size).1
  | 0, n, s, h => ⟨rfl, h⟩
  | 1, n, s, h => by
      obtain ⟨e, h'⟩ := h.random
      refine ⟨?_, h'⟩
      show lastBytes 1 s.random.2 = _
      rw [e, ← BitVec.ushiftRight_zero (wide _), lastBytes_wide]
      rfl
  | 2, n, s, h => by
      obtain ⟨e, h'⟩ := h.random
      refine ⟨?_, h'⟩
      show lastBytes 2 s.random.2 = _
      rw [e, ← BitVec.ushiftRight_zero (wide _), lastBytes_wide]
      rfl
  | 3, n, s, h => by
      obtain ⟨e, h'⟩ := h.random
      refine ⟨?_, h'⟩
      show lastBytes 3 s.random.2 = _
      rw [e, ← BitVec.ushiftRight_zero (wide _), lastBytes_wide]
      rfl
  | m + 4, n, s, h => by
      obtain ⟨e, h'⟩ := h.random
      obtain ⟨i1, i2⟩ := fill_at m h'
      constructor
      · show byte s.random.2 :: byte (s.random.2 >>> 8) :: byte (s.random.2 >>> 16) :: byte (s.random.2 >>> 24) :: (s.random.1.fill m).2 = _
        rw [i1, e, show byte (wide (MT.temper (MT.seq key n))) = byte (wide (MT.temper (MT.seq key n)) >>> 0) by rw [BitVec.ushiftRight_zero], byte_wide, byte_wide, byte_wide, byte_wide,
          Nat.add_comm m 4, List.range_add, List.map_append, List.map_map]
        have hm : (List.range m).map (MT.streamByte (MT.out key) n ∘ fun x => 4 + x) = (List.range m).map (MT.streamByte (MT.out key) (n + 1)) := by
          refine List.map_congr_left fun i _ => ?_
          simp only [Function.comp, MT.streamByte]
          rw [show n + (4 + i) / 4 = n + 1 + i / 4 by omega, show (4 + i) % 4 = i % 4 by omega]
        rw [hm]
        rfl
      · rw [show n + (m + 4 + 3) / 4 = n + 1 + (m + 3) / 4 by omega]
        exact i2

/-- C203: from a valid state, `rk_fill` writes exactly as many bytes as asked for, the low bytes first of the successive words of the published generator, and takes no more words than needed. -/
theorem C203_fill (s : Rk) (key : List (BitVec 32)) (hk : key.length = 624) (pos : ℕ) (hp : pos ≤ 624) (size : ℕ) :
    let t := (s.setState "MT19937" (key.map (BitVec.setWidth 64)) pos).1
    (t.fill size).2.length = size ∧ (∀ i (h : i < (t.fill size).2.length), (t.fill size).2[i] = BitVec.ofNat 8 (MT.out (fun i => key.getD i 0) (pos + i / 4) / 2 ^ (8 * (i % 4)))) ∧
      ∀ n, (t.fill size).1.word n = t.word ((size + 3) / 4 + n) := by
  have a := setState_at s key hk pos hp
  dsimp only
  generalize (s.setState "MT19937" (key.map (BitVec.setWidth 64)) pos).1 = t at a
  obtain ⟨h1, h2⟩ := fill_at size a
  refine ⟨by rw [h1]; simp, fun i h => ?_, fun n => ?_⟩
  · simp only [h1, List.getElem_map, List.getElem_range]
    rfl
  · rw [h2.word, a.word, Nat.add_assoc]

/-- C203: a longer buffer begins with the shorter one. -/
theorem C203_prefix (s : Rk) (key : List (BitVec 32)) (hk : key.length = 624) (pos : ℕ) (hp : pos ≤ 624) (m n : ℕ) (h : m ≤ n) :
    let t := (s.setState "MT19937" (key.map (BitVec.setWidth 64)) pos).1
    (t.fill m).2 = (t.fill n).2.take m := by
  have a := setState_at s key hk pos hp
  dsimp only
  generalize (s.setState "MT19937" (key.map (BitVec.setWidth 64)) pos).1 = t at a
  rw [(fill_at m a).1, (fill_at n a).1, ← List.map_take, List.take_range, Nat.min_eq_left h]

theorem mask_width (w : Word) : w &&& 0xffffffff#64 = (w.setWidth 32).setWidth 64 := by
  apply BitVec.eq_of_toNat_eq
  rw [BitVec.toNat_and, show (0xffffffff#64 : Word).toNat = 2 ^ 32 - 1 from rfl, Nat.and_two_pow_sub_one_eq_mod, BitVec.toNat_setWidth, BitVec.toNat_setWidth,
    Nat.mod_eq_of_lt (a := w.toNat % 2 ^ 32) (lt_of_lt_of_le (Nat.mod_lt _ (by norm_num)) (by norm_num))]

/-- C203: whatever the device gives, even nothing but zeros, and whatever the clocks show without it, the generator seeded by `rk_randomseed` does not degenerate and its words recur with a period; the flag says whether the device was used. -/
theorem C203_randomseed (dev : Option (ℕ → Word)) (pid sec usec clk : Word) (s : Rk) :
    (s.randomseed dev pid sec usec clk).2 = dev.isSome ∧ (∀ n, ∃ k, n ≤ k ∧ k < n + 624 ∧ (s.randomseed dev pid sec usec clk).1.word k ≠ 0) ∧
      ∃ T, 0 < T ∧ ∀ n, 1 ≤ n → (s.randomseed dev pid sec usec clk).1.word (n + T) = (s.randomseed dev pid sec usec clk).1.word n := by
  cases dev with
  | none =>
      obtain ⟨h1, T, h2, h3⟩ := C101_seed (hash pid ^^^ hash sec ^^^ hash usec ^^^ hash clk) s
      exact ⟨rfl, h1, T, h2, fun n _ => h3 n⟩
  | some d =>
      refine ⟨rfl, ?_⟩
      let key : List (BitVec 32) := (List.range 624).map fun i : ℕ => (if i = 0 then d 0 ||| 0x80000000#64 else d i).setWidth 32
      have hk : key.length = 624 := by simp [key]
      have e : (s.randomseed (some d) pid sec usec clk).1 = (s.setState "MT19937" (key.map (BitVec.setWidth 64)) 624).1 := by
        unfold Rk.setState Rk.randomseed
        rw [if_neg (by simp), if_neg (by simp [hk])]
        simp only [Rk.mk.injEq, and_true]
        funext i
        have hg : ∀ j : ℕ, j < 624 → (key.map (BitVec.setWidth 64)).getD j 0 = ((if j = 0 then d 0 ||| 0x80000000#64 else d j).setWidth 32).setWidth 64 := fun j hj => by
          simp only [key, List.map_map]
          rw [List.getD_eq_getElem?_getD, List.getElem?_map, List.getElem?_range hj]
          rfl
        by_cases hi : 0 ≤ i ∧ i < 624
        · rw [if_pos hi, if_pos hi, hg _ (by omega), mask_width]
          by_cases hi0 : i = 0
          · subst hi0; rfl
          · rw [if_neg hi0, if_neg (by omega)]
        · rw [if_neg hi, if_neg hi]
      rw [e]
      refine C101_set_partial s key hk 624 le_rfl (Or.inl ?_)
      have : key.getD 0 0 = (d 0 ||| 0x80000000#64).setWidth 32 := by simp [key]
      rw [this, BitVec.getLsbD_setWidth, BitVec.getLsbD_or]
      simp only [show (0x80000000#64 : Word).getLsbD 31 = true by decide, Bool.or_true, Bool.and_true]
      decide

/-! ## C204 -/

/-- Specification: the first two successive numbers, from word `n` on, that are the coordinates of a point inside the unit circle other than its centre. -/
def MT.disc (w : ℕ → ℕ) : ℕ → ℕ → Option (ℕ × ℚ × ℚ)
  | 0, _ => none
  | fuel + 1, n =>
      let x := 2 * MT.real w n - 1
      let y := 2 * MT.real w (n + 2) - 1
      if 0 < x ^ 2 + y ^ 2 ∧ x ^ 2 + y ^ 2 < 1 then some (n + 4, x, y) else MT.disc w fuel (n + 4)

theorem polar_at {key : ℕ → BitVec 32} (fuel : ℕ) : ∀ {n : ℕ} {s : Rk}, At key n s → Option.Rel (fun a r => r.2 = a.2 ∧ At key a.1 r.1) (MT.disc (MT.out key) fuel n) (polar fuel s) := by
  induction fuel with
  | zero => intro n s _; exact Option.Rel.none
  | succ fuel ih =>
      intro n s h
      obtain ⟨e1, h1⟩ := h.double
      obtain ⟨e2, h2⟩ := h1.double
      rw [MT.disc, polar]
      simp only [e1, e2]
      set x := 2 * MT.real (MT.out key) n - 1
      set y := 2 * MT.real (MT.out key) (n + 2) - 1
      have nn : 0 ≤ x ^ 2 + y ^ 2 := by positivity
      by_cases hc : 0 < x ^ 2 + y ^ 2 ∧ x ^ 2 + y ^ 2 < 1
      · rw [if_pos hc, if_neg]
        · exact Option.Rel.some ⟨rfl, h2⟩
        · rw [← pow_two, ← pow_two]
          rintro (hh | hh)
          · linarith [hc.2]
          · linarith [hc.1]
      · rw [if_neg hc, if_pos]
        · exact ih h2
        · rw [← pow_two, ← pow_two]
          by_contra hh
          push Not at hh
          exact hc ⟨lt_of_le_of_ne nn (Ne.symm hh.2), hh.1⟩

theorem disc_fine {w : ℕ → ℕ} (fuel : ℕ) : ∀ {n : ℕ} {a : ℕ × ℚ × ℚ}, MT.disc w fuel n = some a → 0 < a.2.1 ^ 2 + a.2.2 ^ 2 ∧ a.2.1 ^ 2 + a.2.2 ^ 2 < 1 ∧ 1 / 2 ^ 104 ≤ a.2.1 ^ 2 + a.2.2 ^ 2 := by
  induction fuel with
  | zero => intro n a h; cases h
  | succ fuel ih =>
      intro n a h
      rw [MT.disc] at h
      split_ifs at h with hc
      · cases h
        refine ⟨hc.1, hc.2, ?_⟩
        have hx : ∀ n, ∃ k : ℤ, 2 * MT.real w n - 1 = k / 2 ^ 52 := fun n =>
          ⟨((w n / 2 ^ 5 * 2 ^ 26 + w (n + 1) / 2 ^ 6 : ℕ) : ℤ) - 2 ^ 52, by
            rw [MT.real]
            generalize w n / 2 ^ 5 * 2 ^ 26 + w (n + 1) / 2 ^ 6 = N
            push_cast
            ring⟩
        obtain ⟨k, hk⟩ := hx n
        obtain ⟨l, hl⟩ := hx (n + 2)
        have h1 := hc.1
        simp only [hk, hl] at h1 ⊢
        have e : ((k : ℚ) / 2 ^ 52) ^ 2 + ((l : ℚ) / 2 ^ 52) ^ 2 = ((k ^ 2 + l ^ 2 : ℤ) : ℚ) / 2 ^ 104 := by push_cast; ring
        rw [e] at h1 ⊢
        have h2 : 0 < k ^ 2 + l ^ 2 := by
          have := (div_pos_iff_of_pos_right (by positivity)).1 h1
          exact_mod_cast this
        have h3 : (1 : ℚ) ≤ ((k ^ 2 + l ^ 2 : ℤ) : ℚ) := by exact_mod_cast h2
        gcongr
      · exact ih h

open Real

theorem factor_sq {x y : ℝ} (h0 : 0 < x ^ 2 + y ^ 2) (h1 : x ^ 2 + y ^ 2 < 1) : factor x y ^ 2 * (x ^ 2 + y ^ 2) = -2 * log (x ^ 2 + y ^ 2) := by
  have e : x * x + y * y = x ^ 2 + y ^ 2 := by ring
  have hl := log_neg h0 h1
  rw [factor, e, sq_sqrt (div_nonneg (by linarith) h0.le)]
  field_simp

/-- C204: from a valid state with no deviate kept, the deviates come in pairs made from the first point inside the unit circle that the words give: the sum of the squares of a pair is
-2 log r², their ratio that of the coordinates; the second of a pair takes no words. -/
theorem C204_pairs (s t u : Rg) (key : List (BitVec 32)) (hk : key.length = 624) (pos : ℕ) (hp : pos ≤ 624) (ht : t.has = false) (hs : t.rk = (s.rk.setState "MT19937" (key.map (BitVec.setWidth 64)) pos).1)
    {fuel : ℕ} {z : ℝ} (h : t.gauss fuel = some (u, z)) : ∃ n x y z', MT.disc (MT.out fun i => key.getD i 0) fuel pos = some (n, x, y) ∧ (∀ fuel', u.gauss fuel' = some (⟨u.rk, false, z'⟩, z')) ∧
      z' ^ 2 + z ^ 2 = -2 * log ((x : ℝ) ^ 2 + (y : ℝ) ^ 2) ∧ z' * y = z * x ∧ 0 ≤ z' * x ∧ 0 ≤ z * y ∧ ∀ k, u.rk.word k = t.rk.word (n - pos + k) := by
  have a := setState_at s.rk key hk pos hp
  rw [← hs] at a
  have r := polar_at fuel a
  rw [Rg.gauss, ht, if_neg (by simp)] at h
  obtain ⟨p, hp1, hp2⟩ := Option.map_eq_some_iff.1 h
  rw [hp1] at r
  generalize hD : MT.disc (MT.out fun i => key.getD i 0) fuel pos = D at r
  cases r with
  | @some b _ q =>
      obtain ⟨n, x, y⟩ := b
      obtain ⟨q1, q2⟩ := q
      obtain ⟨f1, f2, f3⟩ := disc_fine fuel hD
      have g1 : 0 < (x : ℝ) ^ 2 + (y : ℝ) ^ 2 := by exact_mod_cast f1
      have g2 : (x : ℝ) ^ 2 + (y : ℝ) ^ 2 < 1 := by exact_mod_cast f2
      have hle : pos ≤ n := by
        have : ∀ fuel m a, MT.disc (MT.out fun i => key.getD i 0) fuel m = some a → m ≤ a.1 := by
          intro fuel
          induction fuel with
          | zero => intro m a h; cases h
          | succ f ih =>
              intro m a h
              rw [MT.disc] at h
              split_ifs at h
              · cases h; simp
              · have := ih _ _ h; omega
        exact this _ _ _ hD
      cases hp2
      simp only at q1 q2
      rw [q1]
      refine ⟨n, x, y, factor x y * x, rfl, fun fuel' => ?_, ?_, by ring, ?_, ?_, fun k => ?_⟩
      · rw [Rg.gauss]; simp
      · rw [← factor_sq g1 g2]; ring
      · have : 0 ≤ factor (x : ℝ) y := sqrt_nonneg _
        rw [mul_assoc]; exact mul_nonneg this (mul_self_nonneg _)
      · have : 0 ≤ factor (x : ℝ) y := sqrt_nonneg _
        rw [mul_assoc]; exact mul_nonneg this (mul_self_nonneg _)
      · rw [q2.word, a.word]
        congr 3
        omega

/-- C204: no deviate from a valid state exceeds √(208 log 2), about 12. -/
theorem C204_bound (s t u : Rg) (key : List (BitVec 32)) (hk : key.length = 624) (pos : ℕ) (hp : pos ≤ 624) (ht : t.has = false) (hs : t.rk = (s.rk.setState "MT19937" (key.map (BitVec.setWidth 64)) pos).1)
    {fuel : ℕ} {z : ℝ} (h : t.gauss fuel = some (u, z)) : z ^ 2 ≤ 208 * log 2 ∧ u.g ^ 2 ≤ 208 * log 2 ∧ |z| < 12.01 ∧ |u.g| < 12.01 := by
  obtain ⟨n, x, y, z', h1, h2, h3, _⟩ := C204_pairs s t u key hk pos hp ht hs h
  obtain ⟨f1, f2, f3⟩ := disc_fine fuel h1
  have g1 : (1 : ℝ) / 2 ^ 104 ≤ (x : ℝ) ^ 2 + (y : ℝ) ^ 2 := by
    have : ((1 / 2 ^ 104 : ℚ) : ℝ) ≤ ((x ^ 2 + y ^ 2 : ℚ) : ℝ) := Rat.cast_le.2 f3
    push_cast at this
    exact this
  have hl := log_le_log (by positivity) g1
  rw [log_div one_ne_zero (by positivity), log_one, log_pow] at hl
  have hu : u.g = z' := by
    have := h2 0
    rw [Rg.gauss] at this
    split_ifs at this with hh
    · have := Option.some.inj this
      exact (Prod.mk.inj this).2
    · simp [polar] at this
  have hz := sq_nonneg z
  have hz' := sq_nonneg z'
  push_cast at hl
  have b1 : z ^ 2 ≤ 208 * log 2 := by linarith
  have b2 : z' ^ 2 ≤ 208 * log 2 := by linarith
  have hlog := log_two_lt_d9
  have key : ∀ v : ℝ, v ^ 2 ≤ 208 * log 2 → |v| < 12.01 := fun v hv => abs_lt_of_sq_lt_sq (by norm_num at hlog ⊢; linarith) (by norm_num)
  rw [hu]
  exact ⟨b1, b2, key _ b1, key _ b2⟩

/-- The results of `k` calls of `rk_gauss`, each within `fuel` trials. -/
noncomputable def Rg.gausses (fuel : ℕ) : ℕ → Rg → Option (List ℝ)
  | 0, _ => some []
  | k + 1, s => (s.gauss fuel).bind fun r => (Rg.gausses fuel k r.1).map (r.2 :: ·)

theorem gausses_at {key : ℕ → BitVec 32} (fuel k : ℕ) : ∀ {n : ℕ} {t t' : Rg}, At key n t.rk → At key n t'.rk → t.has = t'.has → (t.has = true → t.g = t'.g) →
    t.gausses fuel k = t'.gausses fuel k := by
  induction k with
  | zero => intros; rfl
  | succ k ih =>
      intro n t t' a a' hh hg
      rw [Rg.gausses, Rg.gausses]
      by_cases c : t.has = true
      · have c' : t'.has = true := hh ▸ c
        rw [Rg.gauss, Rg.gauss, if_pos c, if_pos c', Option.bind_some, Option.bind_some, hg c]
        exact congrArg _ (ih (n := n) a a' rfl (fun h => by cases h))
      · have c' : ¬ t'.has = true := hh ▸ c
        rw [Rg.gauss, Rg.gauss, if_neg c, if_neg c']
        have r := polar_at fuel a
        have r' := polar_at fuel a'
        generalize MT.disc (MT.out key) fuel n = D at r r'
        generalize polar fuel t.rk = P at r
        generalize polar fuel t'.rk = P' at r'
        cases r with
        | none => cases r'; rfl
        | some q =>
            cases r' with
            | some q' =>
                simp only [Option.map_some, Option.bind_some]
                rw [q.1, q'.1]
                exact congrArg _ (ih q.2 q'.2 rfl (fun _ => rfl))

/-- C204: after seeding no deviate is kept: the deviates that follow, however many, depend on the seed alone (on its low 32 bits), whatever the generator and the kept deviate were before.

Missing: the same for `set_rng_state` (`C204_violated_restore`). -/
theorem C204_seed_partial (seed seed' : Word) (h : seed.setWidth 32 = seed'.setWidth 32) (s s' : Rg) (fuel k : ℕ) : (s.seed seed).gausses fuel k = (s'.seed seed').gausses fuel k := by
  have a := seed_at seed s.rk
  have a' := seed_at seed' s'.rk
  rw [h] at a
  exact gausses_at fuel k a a' rfl (fun h => by cases h)

/-- C204 fails for states set with `set_rng_state`: a deviate kept from before is the next one given, whatever the new state. -/
theorem C204_violated_restore (s : Rg) (hs : s.has = true) (key : List Word) (pos : ℤ) (fuel : ℕ) :
    ((s.setState "MT19937" key pos).1.gauss fuel).map Prod.snd = some s.g := by
  simp [Rg.setState, Rg.gauss, hs]

/-! ### The distribution -/

open MeasureTheory Set
open scoped ENNReal

/-- The radial part of the change of variables. -/
theorem radial (G : ℝ → ℝ≥0∞) : ∫⁻ r in Ioo (0 : ℝ) 1, ENNReal.ofReal r * G (√(-2 * log (r ^ 2))) = ∫⁻ ρ in Ioi (0 : ℝ), ENNReal.ofReal ρ * (ENNReal.ofReal (exp (-ρ ^ 2 / 2) / 2) * G ρ) := by
  have him : (fun ρ : ℝ => exp (-ρ ^ 2 / 4)) '' Ioi 0 = Ioo 0 1 := by
    ext r
    constructor
    · rintro ⟨ρ, hρ, rfl⟩
      have : 0 < ρ ^ 2 := pow_pos hρ 2
      exact ⟨exp_pos _, by simp only; rw [← Real.exp_zero]; exact exp_lt_exp.2 (by linarith)⟩
    · rintro ⟨h0, h1⟩
      have hl := log_neg h0 h1
      refine ⟨√(-4 * log r), sqrt_pos.2 (by linarith), ?_⟩
      simp only
      rw [sq_sqrt (by linarith), show -(-4 * log r) / 4 = log r by ring, exp_log h0]
  have hd : ∀ ρ ∈ Ioi (0 : ℝ), HasDerivWithinAt (fun ρ : ℝ => exp (-ρ ^ 2 / 4)) (exp (-ρ ^ 2 / 4) * (-ρ / 2)) (Ioi 0) ρ := fun ρ _ => by
    have h1 : HasDerivAt (fun ρ : ℝ => -ρ ^ 2 / 4) (-ρ / 2) ρ := (((hasDerivAt_pow 2 ρ).neg).div_const 4).congr_deriv (by push_cast; ring)
    exact h1.exp.hasDerivWithinAt
  have hi : InjOn (fun ρ : ℝ => exp (-ρ ^ 2 / 4)) (Ioi 0) := fun a ha b hb hab => by
    have := exp_injective hab
    have : a ^ 2 = b ^ 2 := by linarith
    exact (pow_left_inj₀ (le_of_lt ha) (le_of_lt hb) two_ne_zero).1 this
  rw [← him, lintegral_image_eq_lintegral_abs_deriv_mul measurableSet_Ioi hd hi]
  refine setLIntegral_congr_fun measurableSet_Ioi fun ρ hρ => ?_
  have hρ' : (0 : ℝ) < ρ := hρ
  have e1 : √(-2 * log (exp (-ρ ^ 2 / 4) ^ 2)) = ρ := by
    rw [← exp_nat_mul, log_exp]
    rw [show -2 * (((2 : ℕ) : ℝ) * (-ρ ^ 2 / 4)) = ρ ^ 2 by push_cast; ring, sqrt_sq hρ'.le]
  have e2 : |exp (-ρ ^ 2 / 4) * (-ρ / 2)| = exp (-ρ ^ 2 / 4) * (ρ / 2) := by
    rw [abs_mul, abs_of_pos (exp_pos _), show -ρ / 2 = -(ρ / 2) by ring, abs_neg, abs_of_pos (by positivity)]
  rw [e1, e2, ← mul_assoc, ← mul_assoc, ← ENNReal.ofReal_mul (by positivity), ← ENNReal.ofReal_mul hρ'.le]
  congr 2
  rw [show -ρ ^ 2 / 2 = -ρ ^ 2 / 4 + -ρ ^ 2 / 4 by ring, exp_add]
  ring

/-- The pair of deviates given for a point inside the unit circle: first the one returned, then the one kept. -/
noncomputable def deviates (x : ℝ × ℝ) : ℝ × ℝ := (factor x.1 x.2 * x.2, factor x.1 x.2 * x.1)

/-- C204: if the point is uniform over the disc, the two deviates are independent standard normal numbers. (The disc has the area π, and the normal density is e^(-z²/2)/(2π) in the plane.) -/
theorem C204_normal {F : ℝ × ℝ → ℝ≥0∞} (hF : Measurable F) :
    ∫⁻ x in {x : ℝ × ℝ | 0 < x.1 ^ 2 + x.2 ^ 2 ∧ x.1 ^ 2 + x.2 ^ 2 < 1}, F (deviates x) = ∫⁻ z : ℝ × ℝ, ENNReal.ofReal (exp (-(z.1 ^ 2 + z.2 ^ 2) / 2) / 2) * F z := by
  have hswap : ∫⁻ z : ℝ × ℝ, ENNReal.ofReal (exp (-(z.1 ^ 2 + z.2 ^ 2) / 2) / 2) * F z = ∫⁻ z : ℝ × ℝ, ENNReal.ofReal (exp (-(z.1 ^ 2 + z.2 ^ 2) / 2) / 2) * F (z.2, z.1) := by
    have hm : Measurable fun z : ℝ × ℝ => ENNReal.ofReal (exp (-(z.1 ^ 2 + z.2 ^ 2) / 2) / 2) * F z := by fun_prop
    rw [Measure.volume_eq_prod, ← lintegral_prod_swap]
    refine lintegral_congr fun z => ?_
    simp only [Prod.swap]
    rw [add_comm (z.2 ^ 2)]
  have hms : MeasurableSet {x : ℝ × ℝ | 0 < x.1 ^ 2 + x.2 ^ 2 ∧ x.1 ^ 2 + x.2 ^ 2 < 1} := by
    have h1 : MeasurableSet {x : ℝ × ℝ | 0 < x.1 ^ 2 + x.2 ^ 2} := measurableSet_lt (by fun_prop) (by fun_prop)
    have h2 : MeasurableSet {x : ℝ × ℝ | x.1 ^ 2 + x.2 ^ 2 < 1} := measurableSet_lt (by fun_prop) (by fun_prop)
    exact h1.inter h2
  rw [hswap, ← lintegral_indicator hms, ← lintegral_comp_polarCoord_symm, ← lintegral_comp_polarCoord_symm]
  have htm : MeasurableSet polarCoord.target := polarCoord.open_target.measurableSet
  have hL : ∫⁻ p in polarCoord.target, ENNReal.ofReal p.1 • ({x : ℝ × ℝ | 0 < x.1 ^ 2 + x.2 ^ 2 ∧ x.1 ^ 2 + x.2 ^ 2 < 1}.indicator (fun x => F (deviates x))) (polarCoord.symm p) =
      ∫⁻ p in polarCoord.target, (Iio (1 : ℝ)).indicator (fun r => ENNReal.ofReal r * F (√(-2 * log (r ^ 2)) * sin p.2, √(-2 * log (r ^ 2)) * cos p.2)) p.1 := by
    refine setLIntegral_congr_fun htm fun p hp => ?_
    obtain ⟨hr, hθ⟩ : 0 < p.1 ∧ p.2 ∈ Ioo (-π) π := by simpa [polarCoord_target] using hp
    have e : (p.1 * cos p.2) ^ 2 + (p.1 * sin p.2) ^ 2 = p.1 ^ 2 := by
      have := sin_sq_add_cos_sq p.2
      linear_combination p.1 ^ 2 * this
    simp only [polarCoord_symm_apply, smul_eq_mul]
    by_cases h1 : p.1 < 1
    · rw [indicator_of_mem (show (p.1 * cos p.2, p.1 * sin p.2) ∈ {x : ℝ × ℝ | 0 < x.1 ^ 2 + x.2 ^ 2 ∧ x.1 ^ 2 + x.2 ^ 2 < 1} from ⟨by simp only [e]; positivity, by simp only [e]; exact pow_lt_one₀ hr.le h1 two_ne_zero⟩), indicator_of_mem (show p.1 ∈ Iio 1 from h1)]
      congr 2
      have ef : factor (p.1 * cos p.2) (p.1 * sin p.2) * p.1 = √(-2 * log (p.1 ^ 2)) := by
        rw [factor, ← pow_two, ← pow_two, e, sqrt_div', sqrt_sq hr.le]
        · field_simp
        · positivity
      rw [deviates]
      simp only
      rw [← ef]
      congr 1 <;> ring
    · rw [indicator_of_notMem, indicator_of_notMem (show p.1 ∉ Iio 1 from h1), mul_zero]
      rintro ⟨_, h2⟩
      simp only [e] at h2
      exact h1 ((pow_lt_one_iff_of_nonneg hr.le two_ne_zero).1 h2)
  have hR : ∫⁻ p in polarCoord.target, ENNReal.ofReal p.1 • (fun z : ℝ × ℝ => ENNReal.ofReal (exp (-(z.1 ^ 2 + z.2 ^ 2) / 2) / 2) * F (z.2, z.1)) (polarCoord.symm p) =
      ∫⁻ p in polarCoord.target, ENNReal.ofReal p.1 * (ENNReal.ofReal (exp (-p.1 ^ 2 / 2) / 2) * F (p.1 * sin p.2, p.1 * cos p.2)) := by
    refine setLIntegral_congr_fun htm fun p _ => ?_
    have e : (p.1 * cos p.2) ^ 2 + (p.1 * sin p.2) ^ 2 = p.1 ^ 2 := by
      have := sin_sq_add_cos_sq p.2
      linear_combination p.1 ^ 2 * this
    simp only [polarCoord_symm_apply, smul_eq_mul, e]
  rw [hL, hR, polarCoord_target, Measure.volume_eq_prod, ← Measure.prod_restrict, lintegral_prod_symm, lintegral_prod_symm]
  · refine lintegral_congr fun θ => ?_
    dsimp only
    rw [lintegral_indicator measurableSet_Iio, Measure.restrict_restrict measurableSet_Iio, inter_comm, Ioi_inter_Iio, ← radial fun ρ => F (ρ * sin θ, ρ * cos θ)]
  · exact Measurable.aemeasurable (by fun_prop)
  · refine Measurable.aemeasurable ?_
    have : (fun p : ℝ × ℝ => (Iio (1 : ℝ)).indicator (fun r => ENNReal.ofReal r * F (√(-2 * log (r ^ 2)) * sin p.2, √(-2 * log (r ^ 2)) * cos p.2)) p.1) =
        (Prod.fst ⁻¹' Iio (1 : ℝ)).indicator fun p : ℝ × ℝ => ENNReal.ofReal p.1 * F (√(-2 * log (p.1 ^ 2)) * sin p.2, √(-2 * log (p.1 ^ 2)) * cos p.2) := by
      funext p
      simp only [indicator, mem_preimage]
    rw [this]
    refine Measurable.indicator ?_ (measurable_fst measurableSet_Iio)
    fun_prop

example : MT.disc (fun _ => 0) 2 0 = none := by norm_num [MT.disc, MT.real]

example : (MT.disc (fun _ => 2 ^ 31 + 2 ^ 29) 1 0).isSome = true := by norm_num [MT.disc, MT.real]

end Verif.MC
