import Verif.Pie.HTrans
import Mathlib.Tactic.Linarith
import Mathlib.Order.Interval.Set.UnorderedInterval

/-!
# Values and ranges (helper lemmas for C09, C10)
-/

set_option linter.unusedSectionVars false
set_option linter.unusedSimpArgs false

namespace Verif.Pie
variable {K : Type} [Field K] [LinearOrder K]

/-- An undefined parameter has no range. -/
def BlankOk (hd : Handler K) : Prop := hd.status = .undef → hd.bounds = none

theorem HTrans.blankOk {c : Cfg K} {op : Op K} {hd hd' : Handler K} (h : HTrans c op hd hd') (hp : BlankOk hd) :
    BlankOk hd' := by
  intro hu
  cases h <;> first | exact hp hu | exact absurd hu ‹_› | (simp at hu) | (rw [withRange_status] at hu; exact absurd hu ‹_›)

theorem run_blankOk (c : Cfg K) (ops : List (Op K)) (i : ℕ) (hd : Handler K)
    (h : (Inf.init.run c ops).h i = some hd) : BlankOk hd :=
  run_keeps c BlankOk (fun _ => rfl) (fun i => by intro h; simp [Handler.fresh] at h) ops
    (fun _ _ _ _ ht hp => ht.blankOk hp) Inv.init (fun i hd h => by simp [Inf.init] at h) i hd h

variable [IsStrictOrderedRing K]

theorem admits_between {hd : Handler K} {a b x : K} (ha : hd.admits a) (hb : hd.admits b)
    (h : min a b ≤ x ∧ x ≤ max a b) : hd.admits x := by
  intro lo hi e
  obtain ⟨a1, a2⟩ := ha lo hi e
  obtain ⟨b1, b2⟩ := hb lo hi e
  exact ⟨(le_min a1 b1).trans h.1, h.2.trans (max_le a2 b2)⟩

theorem between_mul {s x y : K} (h : (1 ≤ x ∧ x ≤ y) ∨ (y ≤ x ∧ x ≤ 1)) :
    min s (s * y) ≤ s * x ∧ s * x ≤ max s (s * y) := by
  rcases le_total 0 s with hs | hs
  · rcases h with ⟨h1, h2⟩ | ⟨h1, h2⟩
    · exact ⟨(min_le_left _ _).trans (by nlinarith), le_max_of_le_right (mul_le_mul_of_nonneg_left h2 hs)⟩
    · exact ⟨(min_le_right _ _).trans (mul_le_mul_of_nonneg_left h1 hs), le_max_of_le_left (by nlinarith)⟩
  · rcases h with ⟨h1, h2⟩ | ⟨h1, h2⟩
    · exact ⟨(min_le_right _ _).trans (by nlinarith), le_max_of_le_left (by nlinarith)⟩
    · exact ⟨(min_le_left _ _).trans (by nlinarith), le_max_of_le_right (by nlinarith)⟩

theorem zpow_between {f : K} (hf : 0 < f) {k n : ℤ} (h0 : 0 ≤ k) (h1 : k ≤ n) :
    (1 ≤ f ^ k ∧ f ^ k ≤ f ^ n) ∨ (f ^ n ≤ f ^ k ∧ f ^ k ≤ 1) := by
  rcases le_total 1 f with h | h
  · exact Or.inl ⟨one_le_zpow₀ h h0, zpow_le_zpow_right₀ h h1⟩
  · right
    refine ⟨zpow_le_zpow_right_of_le_one₀ hf h h1, ?_⟩
    have := zpow_le_zpow_right_of_le_one₀ hf h h0
    simpa using this

theorem between_lin {s d : K} {k n : ℤ} (h0 : 0 ≤ k) (h1 : k ≤ n) :
    min s (s + n * d) ≤ s + k * d ∧ s + k * d ≤ max s (s + n * d) := by
  have h0' : (0 : K) ≤ k := by exact_mod_cast h0
  have h1' : (k : K) ≤ n := by exact_mod_cast h1
  rcases le_total 0 d with hd | hd
  · exact ⟨(min_le_left _ _).trans (by nlinarith), le_max_of_le_right (by nlinarith)⟩
  · exact ⟨(min_le_right _ _).trans (by nlinarith), le_max_of_le_left (by nlinarith)⟩

/-- What C10's invariant says of a stepping handler. -/
def StepIn (hd : Handler K) : Prop :=
  hd.admits hd.slo ∧ hd.admits hd.shi ∧
  ((hd.steps = 1 ∧ hd.stepNum = 0) ∨ (2 ≤ hd.steps ∧ WS hd ∧ (hd.stype = .log → 0 < hd.fac)))

/-- C10's invariant of a handler. -/
structure J (hd : Handler K) : Prop where
  value : ∀ v, hd.value = some v → hd.admits v
  ordered : ∀ lo hi, hd.bounds = some (lo, hi) → lo ≤ hi
  steps : hd.status = .stepping → StepIn hd

theorem WS.admits_pt {hd : Handler K} (h : WS hd) (h2 : 2 ≤ hd.steps) (hf : hd.stype = .log → 0 < hd.fac)
    (hlo : hd.admits hd.slo) (hhi : hd.admits hd.shi) {k : ℤ} (h0 : 0 ≤ k) (h1 : k < hd.steps) :
    hd.admits (hd.pt k) := by
  have e := h.shi h2
  cases hty : hd.stype with
  | lin =>
    simp only [Handler.pt, hty] at e ⊢
    refine admits_between hlo (e ▸ hhi) (between_lin h0 (by omega))
  | log =>
    simp only [Handler.pt, hty] at e ⊢
    exact admits_between hlo (e ▸ hhi) (between_mul (zpow_between (hf hty) h0 (by omega)))

theorem StepIn.at {hd : Handler K} (h : WS hd) (h2 : 2 ≤ hd.steps) (hf : hd.stype = .log → 0 < hd.fac)
    (hlo : hd.admits hd.slo) (hhi : hd.admits hd.shi) (ho : ∀ lo hi, hd.bounds = some (lo, hi) → lo ≤ hi)
    {k : ℤ} (h0 : 0 ≤ k) (h1 : k < hd.steps) : J (hd.at k) := by
  refine ⟨?_, ho, fun _ => ⟨hlo, hhi, Or.inr ⟨h2, h.at h0 h1, hf⟩⟩⟩
  intro v hv
  simp only [Handler.at, Option.some.injEq] at hv
  subst hv
  exact h.admits_pt h2 hf hlo hhi h0 h1

/-- The numeric environment is sane: roots of positive numbers are positive, and exponentials are not negative. -/
def Cfg.PosOk (c : Cfg K) : Prop := (∀ (r : K) (n : ℤ), 0 < r → 2 ≤ n → 0 < c.root r n) ∧ ∀ u e, c.exp u = some e → 0 ≤ e

/-- The elementary changes other than re-declaring a range, of an operation that sets up stepping properly, keep
`J`. -/
theorem HTrans.j {c : Cfg K} (hroot : c.RootOk) (hpos : c.PosOk) {op : Op K} (hop : op.stepsOk)
    (hnr : ∀ i a b, op ≠ .range i a b) (hnv : ∀ i st d a b, op ≠ .vary i st d (some (a, b)))
    {hd hd' : Handler K} (h : HTrans c op hd hd') (hp : J hd) : J hd' := by
  cases h with
  | rst _ _ h =>
    obtain ⟨a, b, d⟩ := hp.steps h
    refine ⟨fun v hv => ?_, hp.ordered, fun _ => ⟨a, b, ?_⟩⟩
    · simp only [Handler.rst, Option.some.injEq] at hv; subst hv; exact a
    · rcases d with ⟨d, _⟩ | ⟨d, w, f⟩
      · exact Or.inl ⟨d, rfl⟩
      · refine Or.inr ⟨d, ?_, f⟩
        rw [Handler.rst_eq_at]; exact w.at (by omega) (by omega)
  | fix _ _ v h =>
    refine ⟨fun w hw => ?_, hp.ordered, fun e => by simp at e⟩
    simp only [Option.some.injEq] at hw; subst hw; exact h
  | refix _ _ h => exact ⟨hp.value, hp.ordered, fun e => by simp at e⟩
  | setv _ _ v hst h =>
    refine ⟨fun w hw => ?_, hp.ordered, fun e => ?_⟩
    · simp only [Option.some.injEq] at hw; subst hw; exact h
    · simp only at e; rw [hst] at e; exact absurd e (by decide)
  | unb _ _ lo hi v u hst hb hv =>
    refine ⟨fun w hw => ?_, hp.ordered, fun e => ?_⟩
    · simp only [Option.some.injEq] at hw; subst hw
      have hlh := hp.ordered lo hi hb
      refine admits_of (hd := { hd with value := some v }) hb ?_
      rcases hv with rfl | rfl | ⟨e, he, rfl⟩
      · exact ⟨le_refl _, hlh⟩
      · exact ⟨hlh, le_refl _⟩
      · have h0 := hpos.2 u e he
        have h1 : 0 < 1 + e := by linarith
        rw [ge_iff_le, le_div_iff₀ h1, div_le_iff₀ h1]
        constructor <;> nlinarith
    · simp only at e; rw [hst] at e; exact absurd e (by decide)
  | range i a b _ h => exact absurd rfl (hnr i a b)
  | varyF i st d r _ h hd' =>
    cases r with
    | none => exact hp
    | some r => exact absurd rfl (hnv i st d r.1 r.2)
  | varyS i st d r _ dd h hr hd' =>
    cases r with
    | none => exact ⟨hp.value, hp.ordered, fun e => by simp at e⟩
    | some r => exact absurd rfl (hnv i st d r.1 r.2)
  | lin i lo hi n _ h hlo hhi hn =>
    have hn2 : 2 ≤ n := hop.2.2
    refine ⟨fun w hw => ?_, hp.ordered, fun _ => ⟨hlo, hhi, Or.inr ⟨hn2, ?_, fun e => by simp at e⟩⟩⟩
    · simp only [Option.some.injEq] at hw; subst hw; exact hlo
    · exact Handler.proper.ws ⟨hn2, rfl⟩ rfl rfl rfl
  | linF1 i lo hi n _ h hn => obtain ⟨a, b, d⟩ := hop; rw [hn] at a; simp at a
  | linF2 i lo hi n _ x h hn => obtain ⟨a, b, d⟩ := hop; rw [hn] at b; simp at b
  | linF3 i lo hi n _ x y h hn => obtain ⟨a, b, d⟩ := hop; rcases hn with rfl | rfl | rfl <;> simp at a b d
  | log i lo hi n _ h hlo hhi hs =>
    have hr : 0 < hi / lo := by
      rcases mul_pos_iff.mp hs with ⟨a, b⟩ | ⟨a, b⟩
      · exact div_pos b a
      · exact div_pos_of_neg_of_neg b a
    refine ⟨fun w hw => ?_, hp.ordered, fun _ => ⟨hlo, hhi, ?_⟩⟩
    · simp only [Option.some.injEq] at hw; subst hw; exact hlo
    · have h1 : 1 ≤ n := hop
      rcases h1.eq_or_lt with h1 | h1
      · exact Or.inl ⟨h1.symm, rfl⟩
      · refine Or.inr ⟨h1, Handler.proper.ws ⟨by omega, ?_, ?_, fun h2 => hroot _ _ hr h2⟩ rfl rfl rfl,
          fun _ => hpos.1 _ _ hr h1⟩
        · rintro e; simp only at e; rw [e] at hs; simp at hs
        · rintro e; simp only at e; rw [e] at hs; simp at hs
  | next _ _ v h hn hv =>
    obtain ⟨a, b, d⟩ := hp.steps h
    rcases d with ⟨d, e⟩ | ⟨d, w, f⟩
    · rw [d, e] at hn; exact absurd rfl hn
    · have h1 := w.hi
      have h0 := w.lo
      have e : ({ hd with stepNum := hd.stepNum + 1, value := some v } : Handler K) = hd.at (hd.stepNum + 1) := by
        have : v = hd.pt (hd.stepNum + 1) := by
          rcases hv with ⟨e1, rfl⟩ | ⟨e1, x, hx, hv⟩
          · rw [e1]; exact w.shi d
          · rw [w.value] at hx
            injection hx with hx
            subst hx
            rcases hv with ⟨ht, dd, hdd, rfl⟩ | ⟨ht, rfl⟩
            · simp only [Handler.pt, ht, hdd, Option.getD_some]; push_cast; ring
            · simp only [Handler.pt, ht]
              rw [zpow_add_one₀ (f ht).ne']; ring
        rw [this]; rfl
      rw [e]
      exact StepIn.at w d f a b hp.ordered (by omega) (by omega)
  | nextF _ _ h hn hv =>
    obtain ⟨a, b, d⟩ := hp.steps h
    rcases d with ⟨d, e⟩ | ⟨d, w, f⟩
    · rw [d, e] at hn; exact absurd rfl hn
    · rcases hv with hv | ⟨hv, hd'⟩
      · rw [w.value] at hv; simp at hv
      · have := w.lin hv; rw [hd'] at this; simp at this
  | prev _ _ v h hn hv =>
    obtain ⟨a, b, d⟩ := hp.steps h
    rcases d with ⟨d, e⟩ | ⟨d, w, f⟩
    · exact absurd e hn
    · have h1 := w.hi
      have h0 := w.lo
      have e : ({ hd with stepNum := hd.stepNum - 1, value := some v } : Handler K) = hd.at (hd.stepNum - 1) := by
        have : v = hd.pt (hd.stepNum - 1) := by
          rcases hv with ⟨e1, rfl⟩ | ⟨e1, x, hx, hv⟩
          · rw [e1, Handler.pt_zero]
          · rw [w.value] at hx
            injection hx with hx
            subst hx
            rcases hv with ⟨ht, dd, hdd, rfl⟩ | ⟨ht, rfl⟩
            · simp only [Handler.pt, ht, hdd, Option.getD_some]; push_cast; ring
            · simp only [Handler.pt, ht]
              rw [zpow_sub_one₀ (f ht).ne']; ring
        rw [this]; rfl
      rw [e]
      exact StepIn.at w d f a b hp.ordered (by omega) (by omega)
  | prevF _ _ h hn hv =>
    obtain ⟨a, b, d⟩ := hp.steps h
    rcases d with ⟨d, e⟩ | ⟨d, w, f⟩
    · exact absurd e hn
    · rcases hv with hv | ⟨hv, hd'⟩
      · rw [w.value] at hv; simp at hv
      · have := w.lin hv; rw [hd'] at this; simp at this
  | last _ _ h =>
    obtain ⟨a, b, d⟩ := hp.steps h
    rcases d with ⟨d, e⟩ | ⟨d, w, f⟩
    · refine ⟨fun w hw => ?_, hp.ordered, fun _ => ⟨a, b, Or.inl ⟨d, ?_⟩⟩⟩
      · simp only [Option.some.injEq] at hw; subst hw; exact b
      · show hd.steps - 1 = 0; omega
    · have e : ({ hd with stepNum := hd.steps - 1, value := some hd.shi } : Handler K) = hd.at (hd.steps - 1) := by
        unfold Handler.at; rw [← w.shi d]
      rw [e]
      exact StepIn.at w d f a b hp.ordered (by omega) (by omega)

end Verif.Pie
