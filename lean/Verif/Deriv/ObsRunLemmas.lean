import Verif.Deriv.ObsRun
import Verif.Deriv.ObsInfoProps

/-!
# Observed information of a function with a state: lemmas
-/

set_option linter.unusedSectionVars false
set_option linter.unusedSimpArgs false

namespace Verif.Obs

variable {σ : Type} {lfS : LogS σ} {lf : LogF} {Ok : σ → Prop} {At : σ → Vec → Prop}

/-- In the states `Ok` the calls of `lfS` return what `lf` returns, whatever was called before, and a call that returns leads to a state that is at the point of the call. -/
def Acts (lfS : LogS σ) (lf : LogF) (Ok : σ → Prop) (At : σ → Vec → Prop) : Prop :=
  ∀ x st, Ok st → Ok (lfS x st).1 ∧ (lfS x st).2 = lf x ∧ ∀ v, lf x = .ok v → At (lfS x st).1 x

theorem diffsS_eq (ha : Acts lfS lf Ok At) {lfmax : ℝ} {move : ℝ → Vec → Vec} {h : ℕ → ℝ} (hm : ∀ s t m, move t (move s m) = move t m) : ∀ (cnt k : ℕ) (mu d : Vec) (st : σ), Ok st →
    (diffsS lfS lfmax move h cnt k mu d st).2 = diffs lf lfmax move h cnt k mu d ∧ Ok (diffsS lfS lfmax move h cnt k mu d st).1 ∧
    (0 < cnt → ∀ d', (diffs lf lfmax move h cnt k mu d).2 = .ok d' →
      (diffs lf lfmax move h cnt k mu d).1 = move (-(h (k + cnt - 1))) mu ∧ At (diffsS lfS lfmax move h cnt k mu d st).1 (move (-(h (k + cnt - 1))) mu) ∧ h (k + cnt - 1) ≠ 0) := by
  intro cnt
  induction cnt with
  | zero => intro k mu d st hst; exact ⟨rfl, hst, fun h => absurd h (by omega)⟩
  | succ cnt ih =>
    intro k mu d st hst
    rw [diffsS, diffs]
    dsimp only
    obtain ⟨a1, a2, a3⟩ := ha (move (h k) mu) st hst
    rcases e1 : lfS (move (h k) mu) st with ⟨st1, r1⟩
    rw [e1] at a1 a2 a3
    dsimp only at a1 a2 a3
    rw [← a2]
    cases r1 with
    | error e => exact ⟨rfl, a1, fun _ d' h => by cases h⟩
    | ok f1 =>
      dsimp only
      obtain ⟨b1, b2, b3⟩ := ha (move (-(h k)) (move (h k) mu)) st1 a1
      rcases e2 : lfS (move (-(h k)) (move (h k) mu)) st1 with ⟨st2, r2⟩
      rw [e2] at b1 b2 b3
      dsimp only at b1 b2 b3
      rw [← b2]
      cases r2 with
      | error e => exact ⟨rfl, b1, fun _ d' h => by cases h⟩
      | ok f2 =>
        dsimp only
        by_cases hk : h k = 0
        · rw [if_pos hk, if_pos hk]; exact ⟨rfl, b1, fun _ d' h => by cases h⟩
        · rw [if_neg hk, if_neg hk]
          obtain ⟨c1, c2, c3⟩ := ih (k + 1) (move (-(h k)) (move (h k) mu)) (put d k ((f1 + f2 - 2 * lfmax) / h k ^ 2)) st2 b1
          refine ⟨c1, c2, fun _ d' hd' => ?_⟩
          by_cases hc : cnt = 0
          · subst hc
            refine ⟨?_, ?_, by simpa using hk⟩
            · simp [diffs, hm]
            · have := b3 f2 b2.symm
              rw [hm] at this
              simpa [diffsS] using this
          · have := c3 (by omega) d' hd'
            rw [show k + 1 + cnt - 1 = k + (cnt + 1) - 1 by omega] at this
            simpa only [hm] using this

theorem diagS_eq (ha : Acts lfS lf Ok At) {lfmax : ℝ} {dp : Vec} {iter : ℕ} (hit : 1 ≤ iter) {junk : Junk} : ∀ (cnt i : ℕ) (mu : Vec) (s : Info) (st : σ), Ok st →
    (diagS lfS lfmax dp iter junk cnt i mu s st).2 = diag lf lfmax dp iter junk cnt i mu s ∧ Ok (diagS lfS lfmax dp iter junk cnt i mu s st).1 ∧
    (0 < cnt → ∀ s', (diag lf lfmax dp iter junk cnt i mu s).2 = .ok s' →
      At (diagS lfS lfmax dp iter junk cnt i mu s st).1 (put mu (i + cnt - 1) (mu (i + cnt - 1) - dp (i + cnt - 1))) ∧ dp (i + cnt - 1) ≠ 0) := by
  intro cnt
  induction cnt with
  | zero => intro i mu s st hst; exact ⟨rfl, hst, fun h => absurd h (by omega)⟩
  | succ cnt ih =>
    intro i mu s st hst
    rw [diagS, diag]
    dsimp only
    obtain ⟨a1, a2, a3⟩ := diffsS_eq ha (lfmax := lfmax) (move := fun t m => put m i (mu i + t)) (h := fun j => dp i * ratio ^ (iter - j)) (fun s t m => put_put _ _ _ _) iter 1 mu junk.d2f st hst
    rcases e1 : diffsS lfS lfmax (fun t m => put m i (mu i + t)) (fun j => dp i * ratio ^ (iter - j)) iter 1 mu junk.d2f st with ⟨st1, r1⟩
    rw [e1] at a1 a2 a3
    dsimp only at a1 a2 a3
    rw [← a1] at a3 ⊢
    rcases r1 with ⟨mu1, _ | d⟩
    · exact ⟨rfl, a2, fun _ d' h => by cases h⟩
    · dsimp only at a3 ⊢
      obtain ⟨b1, b2, b3⟩ := a3 (by omega) d rfl
      have hex : 1 + iter - 1 = iter := by omega
      rw [hex] at b1 b2 b3
      simp only [Nat.sub_self, pow_zero, mul_one] at b1 b2 b3
      have hmu : put mu1 i (mu i) = mu := by rw [b1, put_put, put_get]
      rw [hmu]
      generalize extrap iter d junk.rid = ex
      obtain ⟨x, di⟩ := ex
      dsimp only
      obtain ⟨c1, c2, c3⟩ := ih (i + 1) mu ⟨put2 s.info i i (-x), put2 s.ierr i i |di|⟩ st1 a2
      refine ⟨c1, c2, fun _ s' hs' => ?_⟩
      by_cases hc : cnt = 0
      · subst hc
        refine ⟨?_, by simpa using b3⟩
        simpa [diagS, sub_eq_add_neg] using b2
      · have := c3 (by omega) s' hs'
        rw [show i + 1 + cnt - 1 = i + (cnt + 1) - 1 by omega] at this
        exact this

theorem mixedS_eq (ha : Acts lfS lf Ok At) {lfmax : ℝ} {iter : ℕ} (hit : 1 ≤ iter) {junk : Junk} {i : ℕ} {mu1 sig1 : ℝ} : ∀ (cnt j : ℕ) (mu : Vec) (s : Info) (st : σ), i < j → Ok st →
    (mixedS lfS lfmax iter junk i mu1 sig1 cnt j mu s st).2 = mixed lf lfmax iter junk i mu1 sig1 cnt j mu s ∧ Ok (mixedS lfS lfmax iter junk i mu1 sig1 cnt j mu s st).1 ∧
    (0 < cnt → ∀ s', (mixed lf lfmax iter junk i mu1 sig1 cnt j mu s).2 = .ok s' →
      0 < s.info (j + cnt - 1) (j + cnt - 1) ∧ At (mixedS lfS lfmax iter junk i mu1 sig1 cnt j mu s st).1
        (put (put mu i (mu1 - sig1)) (j + cnt - 1) (mu (j + cnt - 1) - 1 / √(s.info (j + cnt - 1) (j + cnt - 1))))) := by
  intro cnt
  induction cnt with
  | zero => intro j mu s st _ hst; exact ⟨rfl, hst, fun h => absurd h (by omega)⟩
  | succ cnt ih =>
    intro j mu s st hij hst
    rw [mixedS, mixed]
    dsimp only
    by_cases h0 : s.info j j ≤ 0
    · rw [if_pos h0, if_pos h0]
      exact ⟨rfl, hst, fun _ s' h => by cases h⟩
    rw [if_neg h0, if_neg h0]
    have hmv : ∀ (s' t : ℝ) (m : Vec), put (put (put (put m i (mu1 + s' * sig1)) j (mu j + s' * (1 / √(s.info j j)))) i (mu1 + t * sig1)) j (mu j + t * (1 / √(s.info j j))) =
        put (put m i (mu1 + t * sig1)) j (mu j + t * (1 / √(s.info j j))) := by
      intro s' t m
      rw [put_comm _ _ _ (show j ≠ i by omega), put_put, put_put]
    obtain ⟨a1, a2, a3⟩ := diffsS_eq ha (lfmax := lfmax) (move := fun t m => put (put m i (mu1 + t * sig1)) j (mu j + t * (1 / √(s.info j j)))) (h := fun k => ratio ^ (iter - k)) hmv iter 1 mu junk.d2f st hst
    rcases e1 : diffsS lfS lfmax (fun t m => put (put m i (mu1 + t * sig1)) j (mu j + t * (1 / √(s.info j j)))) (fun k => ratio ^ (iter - k)) iter 1 mu junk.d2f st with ⟨st1, r1⟩
    rw [e1] at a1 a2 a3
    dsimp only at a1 a2 a3
    rw [← a1] at a3 ⊢
    rcases r1 with ⟨m1, _ | d⟩
    · exact ⟨rfl, a2, fun _ d' h => by cases h⟩
    · dsimp only at a3 ⊢
      obtain ⟨b1, b2, -⟩ := a3 (by omega) d rfl
      have hex : 1 + iter - 1 = iter := by omega
      rw [hex] at b1 b2
      simp only [Nat.sub_self, pow_zero, neg_mul, one_mul, ← sub_eq_add_neg] at b1 b2
      have hmu : put m1 j (mu j) = put mu i (mu1 - sig1) := by
        rw [b1, put_put]
        funext k
        by_cases hk : k = j
        · subst hk; rw [put_self, put_ne _ _ (by omega)]
        · rw [put_ne _ _ hk]
      rw [hmu]
      generalize extrap iter d junk.rid = ex
      obtain ⟨x, di⟩ := ex
      dsimp only
      generalize hv : -(1 / 2) * (x + 2) / (sig1 * (1 / √(s.info j j))) = v
      generalize he : 1 / 2 * |di| / (sig1 * (1 / √(s.info j j))) = e
      obtain ⟨c1, c2, c3⟩ := ih (j + 1) (put mu i (mu1 - sig1)) ⟨put2 (put2 s.info i j v) j i v, put2 (put2 s.ierr i j e) j i e⟩ st1 (by omega) a2
      refine ⟨c1, c2, fun _ s' hs' => ?_⟩
      by_cases hc : cnt = 0
      · subst hc
        refine ⟨by simpa using h0, ?_⟩
        simpa [mixedS] using b2
      · have := c3 (by omega) s' hs'
        rw [show j + 1 + cnt - 1 = j + (cnt + 1) - 1 by omega] at this
        dsimp only at this
        rw [put2_ne _ _ (by omega), put2_ne _ _ (by omega), put_put, put_ne _ _ (by omega)] at this
        exact this

theorem pairsS_eq (ha : Acts lfS lf Ok At) {lfmax : ℝ} {n iter : ℕ} (hit : 1 ≤ iter) {junk : Junk} : ∀ (cnt i : ℕ) (mu : Vec) (s : Info) (st : σ), i + cnt = n → Ok st →
    (pairsS lfS lfmax n iter junk cnt i mu s st).2 = pairs lf lfmax n iter junk cnt i mu s ∧ Ok (pairsS lfS lfmax n iter junk cnt i mu s st).1 ∧
    (0 < cnt → ∀ s', (pairs lf lfmax n iter junk cnt i mu s).2 = .ok s' →
      0 < s.info n n ∧ ∃ m : Vec, m n = mu n - 1 / √(s.info n n) ∧ At (pairsS lfS lfmax n iter junk cnt i mu s st).1 m) := by
  intro cnt
  induction cnt with
  | zero => intro i mu s st _ hst; exact ⟨rfl, hst, fun h => absurd h (by omega)⟩
  | succ cnt ih =>
    intro i mu s st hin hst
    rw [pairsS, pairs]
    by_cases h0 : s.info i i ≤ 0
    · rw [if_pos h0, if_pos h0]
      exact ⟨rfl, hst, fun _ s' h => by cases h⟩
    rw [if_neg h0, if_neg h0]
    obtain ⟨a1, a2, a3⟩ := mixedS_eq ha (lfmax := lfmax) hit (junk := junk) (i := i) (mu1 := mu i) (sig1 := 1 / √(s.info i i)) (n - i) (i + 1) mu s st (by omega) hst
    rcases e1 : mixedS lfS lfmax iter junk i (mu i) (1 / √(s.info i i)) (n - i) (i + 1) mu s st with ⟨st1, m1, r1⟩
    rw [e1] at a1 a2 a3
    dsimp only at a1 a2 a3
    rw [← a1] at a3 ⊢
    cases r1 with
    | error e => exact ⟨rfl, a2, fun _ d' h => by cases h⟩
    | ok s1 =>
      dsimp only at a3 ⊢
      obtain ⟨q1, q2, -⟩ := mixed_ok _ _ _ _ _ _ (by omega) a1.symm
      rw [put_restore _ _ _ _ q1 rfl]
      obtain ⟨c1, c2, c3⟩ := ih (i + 1) mu s1 st1 (by omega) a2
      refine ⟨c1, c2, fun _ s' hs' => ?_⟩
      by_cases hc : cnt = 0
      · subst hc
        obtain ⟨b1, b2⟩ := a3 (by omega) s1 rfl
        have hex : i + 1 + (n - i) - 1 = n := by omega
        rw [hex] at b1 b2
        exact ⟨b1, put (put mu i (mu i - 1 / √(s.info i i))) n (mu n - 1 / √(s.info n n)), put_self _ _ _, b2⟩
      · have := c3 (by omega) s' hs'
        rw [(q2 n n (by omega) (by omega)).1] at this
        exact this

theorem ninfolS_eq (ha : Acts lfS lf Ok At) {n : ℕ} {mu : Vec} {lfmax : ℝ} {dp : Vec} {iter : ℕ} (hit : 1 ≤ iter) {junk : Junk} {st : σ} (hst : Ok st) :
    (ninfolS lfS n mu lfmax dp iter junk st).2 = ninfol lf n mu lfmax dp iter junk ∧ Ok (ninfolS lfS n mu lfmax dp iter junk st).1 ∧
    (0 < n → ∀ s', (ninfol lf n mu lfmax dp iter junk).2 = .ok s' → ∃ m : Vec, m n ≠ mu n ∧ At (ninfolS lfS n mu lfmax dp iter junk st).1 m ∧ (n = 1 → m = put mu 1 (mu 1 - dp 1))) := by
  rw [ninfolS, ninfol]
  obtain ⟨a1, a2, a3⟩ := diagS_eq ha (lfmax := lfmax) (dp := dp) hit (junk := junk) n 1 mu ⟨fun _ _ => 0, fun _ _ => 0⟩ st hst
  rcases e1 : diagS lfS lfmax dp iter junk n 1 mu ⟨fun _ _ => 0, fun _ _ => 0⟩ st with ⟨st1, m1, r1⟩
  rw [e1] at a1 a2 a3
  dsimp only at a1 a2 a3
  rw [← a1] at a3 ⊢
  cases r1 with
  | error e => exact ⟨rfl, a2, fun _ d' h => by cases h⟩
  | ok s1 =>
    dsimp only at a3 ⊢
    obtain ⟨rfl, -, -⟩ := diag_ok _ _ _ _ _ _ a1.symm
    rcases Nat.eq_zero_or_pos n with h0 | h0
    · subst h0
      exact ⟨rfl, a2, fun h => absurd h (by omega)⟩
    obtain ⟨c1, c2, c3⟩ := pairsS_eq ha (lfmax := lfmax) (n := n) hit (junk := junk) (n - 1) 1 m1 s1 st1 (by omega) a2
    refine ⟨c1, c2, fun _ s' hs' => ?_⟩
    by_cases hn : n = 1
    · subst hn
      obtain ⟨b1, b2⟩ := a3 (by omega) s1 rfl
      refine ⟨put m1 1 (m1 1 - dp 1), ?_, by simpa [pairsS] using b1, fun _ => rfl⟩
      simpa [put_self] using b2
    · obtain ⟨d1, m, d2, d3⟩ := c3 (by omega) s' hs'
      refine ⟨m, ?_, d3, fun h => absurd h hn⟩
      rw [d2]
      have : 0 < 1 / √(s1.info n n) := by positivity
      linarith

theorem obsinfoS_eq (ha : Acts lfS lf Ok At) {n : ℕ} {mle deltas : Vec} {maxll : ℝ} {niter : ℕ} {junk : Junk} {st : σ} (hst : Ok st) :
    (obsinfoS lfS n mle deltas maxll niter junk st).2 = obsinfo lf n mle deltas (some maxll) niter junk ∧ Ok (obsinfoS lfS n mle deltas maxll niter junk st).1 ∧
    (0 < n → ∀ s', (obsinfo lf n mle deltas (some maxll) niter junk).2 = .ok s' → ∃ m : Vec, m n ≠ mle n ∧ At (obsinfoS lfS n mle deltas maxll niter junk st).1 m ∧ (n = 1 → m = put mle 1 (mle 1 - deltas 1))) :=
  ninfolS_eq ha (by omega) hst

/-! ## Scales -/

theorem guessS_eq (ha : Acts lfS lf Ok At) {fmax : ℝ} {i : ℕ} {x0 dxi : ℝ} : ∀ (fuel : ℕ) (s : ℝ) (x : Vec) (st : σ), Ok st →
    (guessS lfS fmax i x0 dxi fuel s x st).map Prod.snd = guess lf fmax i x0 dxi fuel s x ∧ ∀ r, guessS lfS fmax i x0 dxi fuel s x st = some r → Ok r.1 := by
  intro fuel
  induction fuel with
  | zero => intro s x st _; exact ⟨rfl, fun r h => by cases h⟩
  | succ fuel ih =>
    intro s x st hst
    rw [guessS, guess]
    obtain ⟨a1, a2, -⟩ := ha (put x i (x0 + s * dxi)) st hst
    rcases e1 : lfS (put x i (x0 + s * dxi)) st with ⟨st1, r1⟩
    rw [e1] at a1 a2
    dsimp only at a1 a2
    rw [← a2]
    cases r1 with
    | error e => exact ⟨rfl, fun r h => by cases h; exact a1⟩
    | ok f1 =>
      dsimp only
      by_cases h1 : f1 > fmax
      · rw [if_pos h1, if_pos h1]; exact ⟨rfl, fun r h => by cases h; exact a1⟩
      rw [if_neg h1, if_neg h1]
      by_cases h2 : fmax - f1 ≤ 0
      · rw [if_pos h2, if_pos h2]; exact ih _ _ _ a1
      rw [if_neg h2, if_neg h2]
      exact ⟨rfl, fun r h => by cases h; exact a1⟩

theorem newtonS_eq (ha : Acts lfS lf Ok At) {fmax fc tol : ℝ} {i : ℕ} {step : ℝ} : ∀ (left : ℕ) (x : Vec) (st : σ), Ok st →
    (newtonS lfS fmax fc tol i step left x st).2 = newton lf fmax fc tol i step left x ∧ Ok (newtonS lfS fmax fc tol i step left x st).1 := by
  intro left
  induction left with
  | zero =>
    intro x st hst
    rw [newtonS, newton]
    obtain ⟨a1, a2, -⟩ := ha x st hst
    rcases e1 : lfS x st with ⟨st1, r1⟩
    rw [e1] at a1 a2
    dsimp only at a1 a2
    rw [← a2]
    cases r1 with
    | error e => exact ⟨rfl, a1⟩
    | ok f1 =>
      dsimp only
      by_cases h1 : f1 > fmax
      · rw [if_pos h1, if_pos h1]; exact ⟨rfl, a1⟩
      rw [if_neg h1, if_neg h1]; exact ⟨rfl, a1⟩
  | succ left ih =>
    intro x st hst
    rw [newtonS, newton]
    obtain ⟨a1, a2, -⟩ := ha x st hst
    rcases e1 : lfS x st with ⟨st1, r1⟩
    rw [e1] at a1 a2
    dsimp only at a1 a2
    rw [← a2]
    cases r1 with
    | error e => exact ⟨rfl, a1⟩
    | ok f1 =>
      dsimp only
      by_cases h1 : f1 > fmax
      · rw [if_pos h1, if_pos h1]; exact ⟨rfl, a1⟩
      rw [if_neg h1, if_neg h1]
      by_cases h2 : |f1 - fc| > tol
      · rw [if_pos h2, if_pos h2]
        obtain ⟨b1, b2, -⟩ := ha (put x i (x i + step)) st1 a1
        rcases e2 : lfS (put x i (x i + step)) st1 with ⟨st2, r2⟩
        rw [e2] at b1 b2
        dsimp only at b1 b2
        rw [← b2]
        cases r2 with
        | error e => exact ⟨rfl, b1⟩
        | ok fp =>
          dsimp only
          by_cases h3 : fp > fmax
          · rw [if_pos h3, if_pos h3]; exact ⟨rfl, b1⟩
          rw [if_neg h3, if_neg h3]
          by_cases h4 : step = 0 ∨ fp - f1 = 0
          · rw [if_pos h4, if_pos h4]; exact ⟨rfl, b1⟩
          rw [if_neg h4, if_neg h4]
          exact ih _ _ b1
      · rw [if_neg h2, if_neg h2]; exact ⟨rfl, a1⟩

theorem scalesS_eq (ha : Acts lfS lf Ok At) {fuel : ℕ} {fmax df : ℝ} {maxnr : ℕ} {tol : ℝ} : ∀ (cnt i : ℕ) (x dx : Vec) (st : σ), Ok st →
    (scalesS fuel lfS fmax df maxnr tol cnt i x dx st).map Prod.snd = scales fuel lf fmax df maxnr tol cnt i x dx ∧ ∀ r, scalesS fuel lfS fmax df maxnr tol cnt i x dx st = some r → Ok r.1 := by
  intro cnt
  induction cnt with
  | zero => intro i x dx st hst; exact ⟨rfl, fun r h => by cases h; exact hst⟩
  | succ cnt ih =>
    intro i x dx st hst
    rw [scalesS, scales]
    obtain ⟨a1, a2⟩ := guessS_eq ha (fmax := fmax) (i := i) (x0 := x i) (dxi := dx i) fuel 1 x st hst
    rw [← a1]
    rcases e1 : guessS lfS fmax i (x i) (dx i) fuel 1 x st with _ | ⟨st1, x1, e | ⟨s, del⟩⟩
    · exact ⟨rfl, fun r h => by cases h⟩
    · exact ⟨rfl, fun r h => by cases h; exact a2 _ e1⟩
    · have h1 := a2 _ e1
      dsimp only [Option.map_some] at h1 ⊢
      by_cases hd : df < 0
      · rw [if_pos hd, if_pos hd]; exact ⟨rfl, fun r h => by cases h; exact h1⟩
      rw [if_neg hd, if_neg hd]
      obtain ⟨b1, b2⟩ := newtonS_eq ha (fmax := fmax) (fc := fmax - df) (tol := tol) (i := i) (step := s * dx i) maxnr (put x1 i (x i + s * dx i * √(df / del))) st1 h1
      rw [← b1]
      rcases e2 : newtonS lfS fmax (fmax - df) tol i (s * dx i) maxnr (put x1 i (x i + s * dx i * √(df / del))) st1 with ⟨st2, x2, sta⟩
      rw [e2] at b2
      cases sta with
      | done => exact ih _ _ _ _ b2
      | notMax => exact ⟨rfl, fun r h => by cases h; exact b2⟩
      | maxIter => exact ⟨rfl, fun r h => by cases h; exact b2⟩
      | stop q => exact ⟨rfl, fun r h => by cases h; exact b2⟩

theorem dllstepsS_eq (ha : Acts lfS lf Ok At) {fuel n : ℕ} {mle gs : Vec} {dll maxll : ℝ} {maxiter : ℕ} {tol : ℝ} {st : σ} (hst : Ok st) :
    (dllstepsS fuel lfS n mle gs dll maxll maxiter tol st).map Prod.snd = dllsteps fuel lf n mle gs dll (some maxll) maxiter tol ∧
    ∀ r, dllstepsS fuel lfS n mle gs dll maxll maxiter tol st = some r → Ok r.1 := by
  rw [dllstepsS, dllsteps]
  dsimp only [Option.elim_some]
  obtain ⟨a1, a2⟩ := scalesS_eq ha (fuel := fuel) (fmax := maxll) (df := dll) (maxnr := maxiter) (tol := tol) n 1 mle gs st hst
  rw [← a1]
  rcases e1 : scalesS fuel lfS maxll dll maxiter tol n 1 mle gs st with _ | ⟨st1, x1, d1, _ | _ | _ | s⟩
  · exact ⟨rfl, fun r h => by cases h⟩
  all_goals exact ⟨rfl, fun r h => by cases h; exact a2 _ e1⟩

end Verif.Obs
