import Verif.Spec.Fractions
import Verif.Props.DurationProps

/-!
# Durations with a fraction: C83
-/

set_option autoImplicit false

namespace Hocon
namespace Duration
open Spec
open Tokenizer (lexCastI64)

theorem lexCast_none {num : Str} (h : ∀ i, Denotes num i → ¬ InI64 i) : lexCastI64 num = none := by
  cases e : lexCastI64 num with
  | none => rfl
  | some i => exact absurd ((Value.lexCastI64_iff num i).1 e).2 (h i ((Value.lexCastI64_iff num i).1 e).1)

theorem ofValue_frac (env : Env) (o : DblOps) {v : Value} {x : Dbl} {u : TimeUnit}
    (h : FracAmount env v x u) : ofValue env o v = convertDouble env o x u := by
  cases h with
  | double => rfl
  | text num unit w1 w2 w3 _ _ q hn hc hi hp hs h1 h2 h3 =>
    have g := spelling_facts hs
    obtain ⟨e1, e2⟩ := parts num unit w1 w2 w3 hn hc g.1 g.2 h1 h2 h3
    show parseDuration env o _ = _
    unfold parseDuration
    rw [e1, e2]
    have hne : num.isEmpty = false := by
      cases num with
      | nil => exact absurd rfl hn
      | cons => rfl
    rw [hne]
    show convertText env o num (plural unit) = _
    unfold convertText
    rw [lexCast_none hi, hp, (C39_units unit u).2 hs]
    rfl

theorem tmod_scale (a c : Int) {k : Int} (hk : 0 < k) : (a * k).tmod (c * k) = a.tmod c * k := by
  rw [Int.mul_comm a k, Int.mul_comm c k, Int.mul_tmod_mul_of_pos a c hk, Int.mul_comm]

theorem tdiv_scale (a c : Int) {k : Int} (hk : 0 < k) : (a * k).tdiv (c * k) = a.tdiv c :=
  Int.mul_tdiv_mul_of_pos_left _ _ hk

/-- Seconds and nanoseconds of `a / b` units, as fractions over a common denominator. -/
theorem splitDouble_is {env : Env} {o : DblOps} {Is : Dbl → Int → Int → Prop} {x : Dbl} {a b : Int}
    {u : TimeUnit} (h : Unrounded env o Is x a b u) :
    (∃ c d, Is (splitDouble o x u).1 c d ∧ (c = 0 ↔ a = 0) ∧
      c.tdiv d = (a * nanosPer u).tdiv (b * 1000000000)) ∧
    Is (splitDouble o x u).2 ((a * nanosPer u).tmod (b * 1000000000)) b := by
  have part : ∀ n, nanosPer u * n = 1000000000 →
      a.tdiv (n * b) = (a * nanosPer u).tdiv (b * 1000000000) ∧
      a.tmod (n * b) * nanosPer u = (a * nanosPer u).tmod (b * 1000000000) := by
    intro n e
    have hp : 0 < nanosPer u := by cases u <;> decide
    have e' : b * 1000000000 = (n * b) * nanosPer u := by
      rw [← e, Int.mul_comm, Int.mul_comm (nanosPer u) n, Int.mul_assoc, Int.mul_assoc,
        Int.mul_comm (nanosPer u) b]
    rw [e']
    exact ⟨(tdiv_scale _ _ hp).symm, (tmod_scale _ _ hp).symm⟩
  have multiple : ∀ n, nanosPer u = n * 1000000000 →
      (a * n).tdiv b = (a * nanosPer u).tdiv (b * 1000000000) ∧
      (a * n).tmod b * 1000000000 = (a * nanosPer u).tmod (b * 1000000000) := by
    intro n e
    rw [e, ← Int.mul_assoc]
    exact ⟨(tdiv_scale _ _ (by decide)).symm, (tmod_scale _ _ (by decide)).symm⟩
  have zero : ∀ n : Int, 0 < n → (a * n = 0 ↔ a = 0) := fun n hn =>
    ⟨fun e => (Int.mul_eq_zero.1 e).resolve_right (by omega), fun e => by rw [e, Int.zero_mul]⟩
  cases u
  case nanoseconds =>
    have p := part 1000000000 (by decide)
    refine ⟨⟨_, _, h.div 1000000000 (by decide), Iff.rfl, p.1⟩, ?_⟩
    rw [← p.2]
    have e := h.rem 1000000000 (by decide)
    rw [← Int.mul_one (a.tmod _)] at e
    exact e
  case microseconds =>
    have p := part 1000000 (by decide)
    exact ⟨⟨_, _, h.div 1000000 (by decide), Iff.rfl, p.1⟩, p.2 ▸ h.remMul 1000000 (by decide)⟩
  case milliseconds =>
    have p := part 1000 (by decide)
    exact ⟨⟨_, _, h.div 1000 (by decide), Iff.rfl, p.1⟩, p.2 ▸ h.remMul 1000 (by decide)⟩
  case seconds =>
    have p := part 1 (by decide)
    refine ⟨⟨_, _, h.here, Iff.rfl, ?_⟩, p.2 ▸ h.remMul 1 (by decide)⟩
    rw [← p.1, Int.one_mul]
  case minutes =>
    have p := multiple 60 (by decide)
    exact ⟨⟨_, _, h.mul 60 (by decide), zero _ (by decide), p.1⟩, p.2 ▸ h.mulRemMul 60 (by decide)⟩
  case hours =>
    have p := multiple 3600 (by decide)
    exact ⟨⟨_, _, h.mul 3600 (by decide), zero _ (by decide), p.1⟩, p.2 ▸ h.mulRemMul 3600 (by decide)⟩
  case days =>
    have p := multiple 86400 (by decide)
    exact ⟨⟨_, _, h.mul 86400 (by decide), zero _ (by decide), p.1⟩, p.2 ▸ h.mulRemMul 86400 (by decide)⟩

/-- Cutting to nanoseconds and then to a coarser unit is cutting once. -/
theorem tdiv_twice (t : Int) {b k : Int} (hb : 0 < b) (hk : 0 < k) :
    t.tdiv (b * k) = (t.tdiv b).tdiv k := by
  have nn : ∀ t : Int, 0 ≤ t → t.tdiv (b * k) = (t.tdiv b).tdiv k := by
    intro t ht
    rw [Int.tdiv_eq_ediv_of_nonneg ht, Int.tdiv_eq_ediv_of_nonneg ht,
      Int.tdiv_eq_ediv_of_nonneg (Int.ediv_nonneg ht (by omega)), Int.ediv_ediv_of_nonneg (by omega)]
  by_cases ht : 0 ≤ t
  · exact nn t ht
  · have := nn (-t) (by omega)
    rw [Int.neg_tdiv, Int.neg_tdiv, Int.neg_tdiv] at this
    omega

theorem tmod_twice (t : Int) {b k : Int} (hb : 0 < b) (hk : 0 < k) :
    (t.tmod (b * k)).tdiv b = (t.tdiv b).tmod k := by
  have nn : ∀ t : Int, 0 ≤ t → (t.tmod (b * k)).tdiv b = (t.tdiv b).tmod k := by
    intro t ht
    have hbk : 0 < b * k := Int.mul_pos hb hk
    rw [Int.tmod_eq_emod_of_nonneg ht, Int.tdiv_eq_ediv_of_nonneg (Int.emod_nonneg _ (by omega)),
      Int.tdiv_eq_ediv_of_nonneg ht, Int.tmod_eq_emod_of_nonneg (Int.ediv_nonneg ht (by omega)),
      Int.emod_def, Int.emod_def, ← Int.ediv_ediv_of_nonneg (by omega), Int.mul_assoc,
      Int.sub_eq_add_neg, ← Int.mul_neg, Int.add_mul_ediv_left _ _ (by omega)]
    rfl
  by_cases ht : 0 ≤ t
  · exact nn t ht
  · have := nn (-t) (by omega)
    rw [Int.neg_tmod, Int.neg_tdiv, Int.neg_tdiv, Int.neg_tmod] at this
    omega

theorem tdiv_nonpos {t k : Int} (ht : t ≤ 0) (hk : 0 ≤ k) : t.tdiv k ≤ 0 := by
  have := Int.tdiv_nonneg (a := -t) (b := k) (by omega) hk
  rw [Int.neg_tdiv] at this
  omega

/-- The nanoseconds of `a / b` units `u`, cut towards zero. -/
theorem convertDouble_is {env : Env} {o : DblOps} {Is : Dbl → Int → Int → Prop} {x : Dbl} {a b : Int}
    {u : TimeUnit} (h : Unrounded env o Is x a b u)
    (hs : InI64 ((a * nanosPer u).tdiv (b * 1000000000))) :
    convertDouble env o x u =
      if (a * nanosPer u).tmod (b * 1000000000) = 0 then .err .config
      else .ok (((a * nanosPer u).tdiv b).tdiv 1000000000, ((a * nanosPer u).tdiv b).tmod 1000000000) := by
  obtain ⟨⟨c, d, h1, h0, e⟩, h2⟩ := splitDouble_is h
  have hb := h.pos
  unfold convertDouble
  by_cases hz : (a * nanosPer u).tmod (b * 1000000000) = 0
  · have n2 : o.isNormal (splitDouble o x u).2 = false := by
      rw [Bool.eq_false_iff]; exact fun hh => (h.normal _ _ _ h2).1 hh hz
    rw [if_pos hz, n2]
    simp
  · have ha : c ≠ 0 := by
      intro hc
      rw [h0.1 hc, Int.zero_mul, Int.zero_tmod] at hz
      exact hz rfl
    rw [if_neg hz, (h.normal _ _ _ h1).2 ha, (h.normal _ _ _ h2).2 hz]
    have t1 := h.toI64 _ _ _ h1 (by rw [e]; exact hs)
    have hr := tmod_twice (a * nanosPer u) (k := 1000000000) hb (by decide)
    have t2 := h.toI32 _ _ _ h2 (by
      rw [hr, tmod_if]
      unfold InI32
      omega)
    show castPair env o _ = _
    unfold castPair
    rw [t1, t2, e, tdiv_twice _ hb (by decide), hr]

/-- Every outcome for an amount whose seconds and whose number of units `w` fit. -/
theorem frac_outcome (env : Env) (o : DblOps) (Is : Dbl → Int → Int → Prop) (root v : Value)
    (p : Str) (x : Dbl) (a b : Int) (u w : TimeUnit) (hv : Value.getValue env root p = .ok v)
    (ha : FracAmount env v x u) (h : Unrounded env o Is x a b u)
    (hs : InI64 ((a * nanosPer u).tdiv (b * nanosPer .seconds)))
    (hr : InI64 ((a * nanosPer u).tdiv (b * nanosPer w))) :
    getDuration env o root p w =
      if (b * nanosPer .seconds) ∣ (a * nanosPer u) then .err .config
      else if ((a * nanosPer u).tdiv (b * nanosPer w) ≥ 0) ↔
        ((a * nanosPer u).tdiv (b * nanosPer .seconds) ≥ 0) then
        .ok ((a * nanosPer u).tdiv (b * nanosPer w))
      else .err .config := by
  have hb := h.pos
  have hp : 0 < nanosPer w := by cases w <;> decide
  have e9 : nanosPer .seconds = 1000000000 := by decide
  rw [e9] at hs ⊢
  unfold getDuration
  rw [hv, okBind, ofValue_frac env o ha, convertDouble_is h hs]
  by_cases hd : (b * 1000000000) ∣ (a * nanosPer u)
  · rw [if_pos hd, if_pos (Int.tmod_eq_zero_of_dvd hd)]
    rfl
  · rw [if_neg hd, if_neg (fun e => hd (Int.dvd_of_tmod_eq_zero e)), okBind]
    unfold toUnit
    rw [tdiv_twice _ hb (by decide)] at hs
    rw [tdiv_twice _ hb hp] at hr
    rw [inUnit_eq _ _ hs, if_pos hr, okBind, tdiv_twice _ hb hp,
      tdiv_twice _ hb (show (0 : Int) < 1000000000 by decide)]
    by_cases hq : ((a * nanosPer u).tdiv b).tdiv (nanosPer w) ≥ 0 ↔
        ((a * nanosPer u).tdiv b).tdiv 1000000000 ≥ 0
    · rw [if_pos hq, if_neg]
      simp only [hq, bne_self_eq_false]
      decide
    · rw [if_neg hq, if_pos]
      simp only [bne_iff_ne, ne_eq, decide_eq_decide]
      exact hq

/-- **C83 (partial).** If the value at the path is `a / b` units `u` with a fraction that is not a whole
number of seconds, the arithmetic on it needs no rounding, and the number of seconds and the result fit
in 64 bits, then `get_duration(path, w)` is the exact quotient cut towards zero. Missing: the rounding
of `double`, whole numbers of seconds (`C83_whole_refused`), and negative amounts smaller than a second
or than the unit asked for (`C83_negative_refused`). -/
theorem C83_fraction_partial (env : Env) (o : DblOps) (Is : Dbl → Int → Int → Prop) (root v : Value)
    (p : Str) (x : Dbl) (a b : Int) (u w : TimeUnit) (hv : Value.getValue env root p = .ok v)
    (ha : FracAmount env v x u) (h : Unrounded env o Is x a b u)
    (hw : ¬ (b * nanosPer .seconds) ∣ (a * nanosPer u))
    (hs : InI64 ((a * nanosPer u).tdiv (b * nanosPer .seconds)))
    (hr : InI64 ((a * nanosPer u).tdiv (b * nanosPer w)))
    (hn : 0 ≤ a ∨ ((a * nanosPer u).tdiv (b * nanosPer .seconds) ≠ 0 ∧
      (a * nanosPer u).tdiv (b * nanosPer w) ≠ 0)) :
    getDuration env o root p w = .ok ((a * nanosPer u).tdiv (b * nanosPer w)) := by
  have hb := h.pos
  have hp : 0 < nanosPer w := by cases w <;> decide
  have hu : 0 < nanosPer u := by cases u <;> decide
  have h9 : 0 < nanosPer .seconds := by decide
  rw [frac_outcome env o Is root v p x a b u w hv ha h hs hr, if_neg hw, if_pos]
  rcases hn with hn | ⟨n1, n2⟩
  · have ht := Int.mul_nonneg hn (Int.le_of_lt hu)
    exact ⟨fun _ => Int.tdiv_nonneg ht (Int.le_of_lt (Int.mul_pos hb h9)),
      fun _ => Int.tdiv_nonneg ht (Int.le_of_lt (Int.mul_pos hb hp))⟩
  · by_cases hn : 0 ≤ a
    · have ht := Int.mul_nonneg hn (Int.le_of_lt hu)
      exact ⟨fun _ => Int.tdiv_nonneg ht (Int.le_of_lt (Int.mul_pos hb h9)),
        fun _ => Int.tdiv_nonneg ht (Int.le_of_lt (Int.mul_pos hb hp))⟩
    · have ht : a * nanosPer u ≤ 0 := Int.mul_nonpos_of_nonpos_of_nonneg (by omega) (Int.le_of_lt hu)
      have k1 := tdiv_nonpos ht (Int.le_of_lt (Int.mul_pos hb h9))
      have k2 := tdiv_nonpos ht (Int.le_of_lt (Int.mul_pos hb hp))
      omega

/-- **C83 (violated).** An amount written with a fraction that is a whole number of seconds (`2.0 s`,
`0.5 m`) is refused, in every unit. -/
theorem C83_whole_refused (env : Env) (o : DblOps) (Is : Dbl → Int → Int → Prop) (root v : Value)
    (p : Str) (x : Dbl) (a b : Int) (u w : TimeUnit) (hv : Value.getValue env root p = .ok v)
    (ha : FracAmount env v x u) (h : Unrounded env o Is x a b u)
    (hw : (b * nanosPer .seconds) ∣ (a * nanosPer u)) (hs : InI64 ((a * nanosPer u).tdiv (b * nanosPer .seconds)))
    (hr : InI64 ((a * nanosPer u).tdiv (b * nanosPer w))) :
    getDuration env o root p w = .err .config := by
  rw [frac_outcome env o Is root v p x a b u w hv ha h hs hr, if_pos hw]

/-- **C83 (violated).** A negative amount with a fraction is refused if exactly one of its number of
seconds and its number of units asked for is cut to zero, although the result fits. -/
theorem C83_negative_refused (env : Env) (o : DblOps) (Is : Dbl → Int → Int → Prop) (root v : Value)
    (p : Str) (x : Dbl) (a b : Int) (u w : TimeUnit) (hv : Value.getValue env root p = .ok v)
    (ha : FracAmount env v x u) (h : Unrounded env o Is x a b u)
    (hs : InI64 ((a * nanosPer u).tdiv (b * nanosPer .seconds)))
    (hr : InI64 ((a * nanosPer u).tdiv (b * nanosPer w))) (hn : a < 0)
    (hz : ¬ ((a * nanosPer u).tdiv (b * nanosPer .seconds) = 0 ↔
      (a * nanosPer u).tdiv (b * nanosPer w) = 0)) :
    getDuration env o root p w = .err .config := by
  have hb := h.pos
  have hp : 0 < nanosPer w := by cases w <;> decide
  have hu : 0 < nanosPer u := by cases u <;> decide
  have h9 : 0 < nanosPer .seconds := by decide
  have ht : a * nanosPer u ≤ 0 :=
    Int.mul_nonpos_of_nonpos_of_nonneg (Int.le_of_lt hn) (Int.le_of_lt hu)
  have k1 := tdiv_nonpos ht (Int.le_of_lt (Int.mul_pos hb h9))
  have k2 := tdiv_nonpos ht (Int.le_of_lt (Int.mul_pos hb hp))
  rw [frac_outcome env o Is root v p x a b u w hv ha h hs hr]
  split
  · rfl
  · rw [if_neg]
    intro hq
    apply hz
    omega

/-- **C83 (no number).** A string whose part before the unit is neither a 64-bit integer nor a
double is refused as a bad value, whatever the unit and the spacing. -/
theorem C83_not_a_number (env : Env) (o : DblOps) (root : Value) (p num unit w1 w2 w3 : Str) (q : Bool)
    (w : TimeUnit) (hc : ∀ c ∈ num, isSpace c = false ∧ isAlpha c = false) (hn : num ≠ [])
    (hi : ∀ i, Denotes num i → ¬ InI64 i) (hp : env.parseDouble num = none)
    (hu : ∀ c ∈ unit, isAlpha c = true) (h1 : Blank w1) (h2 : Blank w2) (h3 : Blank w3)
    (hv : Value.getValue env root p = .ok (.scalar (.str (w1 ++ num ++ w2 ++ unit ++ w3) q))) :
    getDuration env o root p w = .err .badValue := by
  obtain ⟨e1, e2⟩ := parts num unit w1 w2 w3 hn hc
    (fun c h => hu c (List.mem_of_mem_head? h))
    (fun c h => alpha_not_space (hu c (List.mem_of_mem_getLast? h))) h1 h2 h3
  have e : ofValue env o (.scalar (.str (w1 ++ num ++ w2 ++ unit ++ w3) q)) = .err .badValue := by
    show parseDuration env o _ = _
    unfold parseDuration
    rw [e1, e2]
    split
    · rfl
    · unfold convertText
      rw [lexCast_none hi, hp]
  unfold getDuration
  rw [hv, okBind, e]
  rfl

/-! ### Examples -/

/-- Decimal fixed-point arithmetic: a double is a number of 10⁻¹⁸. -/
def exFixed : DblOps where
  ofInt i := i * 1000000000000000000
  div x y := (x * 1000000000000000000).tdiv y
  mul x y := (x * y).tdiv 1000000000000000000
  fmod x y := x.tmod y
  isNormal x := x != 0
  toInt x := some (x.tdiv 1000000000000000000)

/-- An environment that reads `1.5` and `-1.5`. -/
def exEnvF : Env := { Tokenizer.exEnv with
  parseDouble := fun s => if s = ch "1.5" then some (1500000000000000000 : Int)
    else if s = ch "-1.5" then some (-1500000000000000000 : Int) else none
  doubleToI64 := fun x => some (x.tdiv 1000000000000000000) }

/-- The fractions of the example. -/
def ExIs (y : Dbl) (c d : Int) : Prop := 0 < d ∧ y * d = c * 1000000000000000000

instance (y : Dbl) (c d : Int) : Decidable (ExIs y c d) := inferInstanceAs (Decidable (_ ∧ _))

theorem exIs_tdiv {y : Dbl} {c d : Int} (h : ExIs y c d) : y.tdiv 1000000000000000000 = c.tdiv d := by
  rw [← tdiv_scale y 1000000000000000000 h.1, h.2, Int.mul_comm 1000000000000000000 d,
    tdiv_scale c d (by decide)]

theorem exIs_normal {y : Dbl} {c d : Int} (h : ExIs y c d) : exFixed.isNormal y = true ↔ c ≠ 0 := by
  obtain ⟨h1, h2⟩ := h
  show (y != 0) = true ↔ _
  rw [bne_iff_ne]
  constructor
  · intro hy hc
    rw [hc, Int.zero_mul] at h2
    exact (Int.mul_eq_zero.1 h2).elim hy (by omega)
  · intro hc hy
    rw [hy, Int.zero_mul] at h2
    have h3 : (c * 1000000000000000000 : Int) = 0 := h2.symm
    omega

theorem exUnrounded_ms : Unrounded exEnvF exFixed ExIs (1500000000000000000 : Int) 3 2 .milliseconds where
  pos := by decide
  here := by decide
  div n hn := by
    have : n = 1000 := by simp only [nanosPer] at hn; omega
    subst this; decide
  rem n hn := by
    have : n = 1000 := by simp only [nanosPer] at hn; omega
    subst this; decide
  remMul n hn := by
    have : n = 1000 := by simp only [nanosPer] at hn; omega
    subst this; decide
  mul n hn := by simp only [nanosPer] at hn; omega
  mulRemMul n hn := by simp only [nanosPer] at hn; omega
  normal _ _ _ h := exIs_normal h
  toI64 _ _ _ h _ := congrArg some (exIs_tdiv h)
  toI32 _ _ _ h _ := congrArg some (exIs_tdiv h)

theorem exUnrounded_min {i : Int} (hi : i = 3 ∨ i = -3) :
    Unrounded exEnvF exFixed ExIs (i * 500000000000000000 : Int) i 2 .minutes where
  pos := by decide
  here := by rcases hi with rfl | rfl <;> decide
  div n hn := by simp only [nanosPer] at hn; omega
  rem n hn := by simp only [nanosPer] at hn; omega
  remMul n hn := by simp only [nanosPer] at hn; omega
  mul n hn := by
    have : n = 60 := by simp only [nanosPer] at hn; omega
    subst this; rcases hi with rfl | rfl <;> decide
  mulRemMul n hn := by
    have : n = 60 := by simp only [nanosPer] at hn; omega
    subst this; rcases hi with rfl | rfl <;> decide
  normal _ _ _ h := exIs_normal h
  toI64 _ _ _ h _ := congrArg some (exIs_tdiv h)
  toI32 _ _ _ h _ := congrArg some (exIs_tdiv h)

theorem exFrac (num unit : Str) (x : Dbl) (u : TimeUnit) (hn : num ≠ [])
    (hc : ∀ c ∈ num, isSpace c = false ∧ isAlpha c = false) (hl : lexCastI64 num = none)
    (hp : exEnvF.parseDouble num = some x) (hu : (unit, u) ∈ spellings) :
    FracAmount exEnvF (.scalar (.str ([] ++ num ++ ch " " ++ unit ++ []) true)) x u :=
  .text num unit [] (ch " ") [] x u true hn hc
    (fun i hd hi => by rw [(Value.lexCastI64_iff num i).2 ⟨hd, hi⟩] at hl; cases hl)
    hp hu (by unfold Blank; decide) (by unfold Blank; decide) (by unfold Blank; decide)

/-- `1.5 ms` are 1500 microseconds. -/
example : getDuration exEnvF exFixed (exDur (ch "1.5 ms")) (ch "d") .microseconds = .ok 1500 :=
  C83_fraction_partial exEnvF exFixed ExIs _ _ _ _ 3 2 .milliseconds .microseconds rfl
    (exFrac (ch "1.5") (ch "ms") _ _ (by decide) (by decide) (by decide) rfl (by decide))
    exUnrounded_ms (by decide) (by decide) (by decide) (by decide)

/-- `1.5 minutes`, a whole number of seconds, is refused. -/
example : getDuration exEnvF exFixed (exDur (ch "1.5 minutes")) (ch "d") .seconds = .err .config :=
  C83_whole_refused exEnvF exFixed ExIs _ _ _ _ 3 2 .minutes .seconds rfl
    (exFrac (ch "1.5") (ch "minutes") _ _ (by decide) (by decide) (by decide) rfl (by decide))
    (exUnrounded_min (.inl rfl)) (by decide) (by decide) (by decide)

/-- `-1.5 minutes` in days. -/
example : getDuration exEnvF exFixed (exDur (ch "-1.5 minutes")) (ch "d") .days = .err .config :=
  C83_negative_refused exEnvF exFixed ExIs _ _ _ _ (-3) 2 .minutes .days rfl
    (exFrac (ch "-1.5") (ch "minutes") _ _ (by decide) (by decide) (by decide) rfl (by decide))
    (exUnrounded_min (.inr rfl)) (by decide) (by decide) (by decide) (by decide)

/-- `..5 s` is a bad value. -/
example : getDuration exEnvF exFixed (exDur (ch "..5 s")) (ch "d") .seconds = .err .badValue :=
  C83_not_a_number exEnvF exFixed _ (ch "d") (ch "..5") (ch "s") [] (ch " ") [] true .seconds (by decide)
    (by decide)
    (fun i hd hi => by
      have hl : lexCastI64 (ch "..5") = none := by decide
      rw [(Value.lexCastI64_iff _ i).2 ⟨hd, hi⟩] at hl; cases hl)
    rfl (by decide) (by unfold Blank; decide) (by unfold Blank; decide) (by unfold Blank; decide) rfl

end Duration
end Hocon
