import Verif.Spec.Time
import Verif.Props.GetterProps

/-!
# Durations: C38, C39, C52
-/

set_option autoImplicit false

namespace Hocon
namespace Duration
open Spec
open Tokenizer (lexCastI64)

/-- The exact number of units `v` in `n` units `u`, cut towards zero. -/
def exact (n : Int) (u v : TimeUnit) : Int := (n * nanosPer u).tdiv (nanosPer v)

instance (i : Int) : Decidable (InI64 i) := by unfold InI64; infer_instance

theorem chk_ok {i : Int} (h : InI64 i) : chk i = .ok i := by
  unfold chk; rw [if_pos ((Value.inI64_iff i).2 h)]

theorem chk_ub {i : Int} (h : ¬ InI64 i) : chk i = .ub := by
  unfold chk; rw [if_neg fun e => h ((Value.inI64_iff i).1 e)]

theorem tdiv_if (n k : Int) : n.tdiv k = if 0 ≤ n then n / k else -((-n) / k) := by
  split
  · exact Int.tdiv_eq_ediv_of_nonneg ‹_›
  · have : n = -(-n) := by omega
    rw [this, Int.neg_tdiv, Int.neg_neg, Int.tdiv_eq_ediv_of_nonneg (by omega)]

theorem tmod_if (n k : Int) : n.tmod k = if 0 ≤ n then n % k else -((-n) % k) := by
  split
  · exact Int.tmod_eq_emod_of_nonneg ‹_›
  · have : n = -(-n) := by omega
    rw [this, Int.neg_tmod, Int.neg_neg, Int.tmod_eq_emod_of_nonneg (by omega)]

theorem bne_decide_false {p q : Prop} [Decidable p] [Decidable q] (h : p ↔ q) :
    (decide p != decide q) = false := by
  by_cases hp : p <;> simp [hp, ← h]

theorem bne_decide_true {p q : Prop} [Decidable p] [Decidable q] (h : ¬ (p ↔ q)) :
    (decide p != decide q) = true := by
  by_cases hp : p <;> by_cases hq : q <;> simp_all

/-- The pair of a 64-bit amount. -/
theorem splitI64_eq (n : Int) (u : TimeUnit) (h : InI64 n) :
    splitI64 n u = if InI64 (exact n u .seconds) then
      .ok ((n * nanosPer u).tdiv 1000000000, (n * nanosPer u).tmod 1000000000) else .ub := by
  have big : ∀ k : Int, 0 < k →
      ((chk (n * k)).bind fun s => Res.ok (s, (0 : Int))) =
        if InI64 ((n * (k * 1000000000)).tdiv 1000000000) then
          .ok ((n * (k * 1000000000)).tdiv 1000000000, (n * (k * 1000000000)).tmod 1000000000)
        else .ub := by
    intro k _
    rw [← Int.mul_assoc, Int.mul_tdiv_cancel _ (by decide), Int.mul_tmod_left]
    split
    · rw [chk_ok ‹_›]; rfl
    · rw [chk_ub ‹_›]; rfl
  have small : ∀ (a b : Int), a = exact n u .seconds →
      b = (n * nanosPer u).tmod 1000000000 → InI64 a →
      Res.ok (a, b) = if InI64 (exact n u .seconds) then
        .ok ((n * nanosPer u).tdiv 1000000000, (n * nanosPer u).tmod 1000000000) else .ub := by
    intro a b ha hb hi
    rw [if_pos (ha ▸ hi), ha, hb]; rfl
  unfold InI64 at h
  cases u
  case nanoseconds =>
    refine small _ _ ?_ ?_ ?_ <;> simp only [exact, nanosPer, InI64, tdiv_if, tmod_if] <;> omega
  case microseconds =>
    refine small _ _ ?_ ?_ ?_ <;> simp only [exact, nanosPer, InI64, tdiv_if, tmod_if] <;> omega
  case milliseconds =>
    refine small _ _ ?_ ?_ ?_ <;> simp only [exact, nanosPer, InI64, tdiv_if, tmod_if] <;> omega
  case seconds =>
    refine small _ _ ?_ ?_ ?_ <;> simp only [exact, nanosPer, InI64, tdiv_if, tmod_if] <;> omega
  case minutes => exact big 60 (by decide)
  case hours => exact big 3600 (by decide)
  case days => exact big 86400 (by decide)

/-- Seconds and nanoseconds joined again. -/
theorem inUnit_eq (t : Int) (v : TimeUnit) (h : InI64 (t.tdiv 1000000000)) :
    inUnit (t.tdiv 1000000000, t.tmod 1000000000) v =
      if InI64 (t.tdiv (nanosPer v)) then .ok (t.tdiv (nanosPer v)) else .ub := by
  have join : ∀ a b r : Int, r = a + b → (InI64 r → InI64 a) →
      ((chk a).bind fun x => chk (x + b)) = if InI64 r then .ok r else .ub := by
    intro a b r e hr
    by_cases ha : InI64 a
    · rw [chk_ok ha]
      show chk (a + b) = _
      rw [← e]
      split
      · exact chk_ok ‹_›
      · exact chk_ub ‹_›
    · rw [chk_ub ha, if_neg fun x => ha (hr x)]; rfl
  have one : ∀ a r : Int, a = r → InI64 a → Res.ok a = if InI64 r then .ok r else .ub := by
    intro a r e hi; subst e; rw [if_pos hi]
  unfold InI64 at h
  rw [tdiv_if] at h
  cases v
  case nanoseconds =>
    refine join _ _ _ ?_ ?_ <;> simp only [nanosPer, InI64, tdiv_if, tmod_if] <;> omega
  case microseconds =>
    refine join _ _ _ ?_ ?_ <;> simp only [nanosPer, InI64, tdiv_if, tmod_if] <;> omega
  case milliseconds =>
    refine join _ _ _ ?_ ?_ <;> simp only [nanosPer, InI64, tdiv_if, tmod_if] <;> omega
  case seconds =>
    refine one _ _ ?_ ?_ <;> simp only [nanosPer, InI64, tdiv_if] <;> omega
  case minutes =>
    refine one _ _ ?_ ?_ <;> simp only [nanosPer, InI64, tdiv_if] <;> omega
  case hours =>
    refine one _ _ ?_ ?_ <;> simp only [nanosPer, InI64, tdiv_if] <;> omega
  case days =>
    refine one _ _ ?_ ?_ <;> simp only [nanosPer, InI64, tdiv_if] <;> omega

/-! ### Reading a duration text -/

theorem isSpace_blank {w : Str} (h : Blank w) : ∀ c ∈ w, isSpace c = true := by
  intro c hc
  have := h c hc
  simp only [List.mem_cons, List.not_mem_nil, or_false] at this
  rcases this with rfl | rfl | rfl | rfl | rfl | rfl <;> decide

theorem dropWhile_all {p : Char → Bool} (a b : Str) (h : ∀ c ∈ a, p c = true) :
    (a ++ b).dropWhile p = b.dropWhile p := by
  induction a with
  | nil => rfl
  | cons x a ih =>
    rw [List.cons_append, List.dropWhile_cons_of_pos (h x List.mem_cons_self)]
    exact ih fun c hc => h c (List.mem_cons_of_mem _ hc)

theorem dropWhile_head {p : Char → Bool} (b : Str) (h : ∀ c, b.head? = some c → p c = false) :
    b.dropWhile p = b := by
  cases b with
  | nil => rfl
  | cons x b => exact List.dropWhile_cons_of_neg (by rw [h x rfl]; decide)

/-- Trimming removes surrounding white space and nothing else. -/
theorem trim_mid (a m b : Str) (ha : ∀ c ∈ a, isSpace c = true) (hb : ∀ c ∈ b, isSpace c = true)
    (h1 : ∀ c, m.head? = some c → isSpace c = false)
    (h2 : ∀ c, m.getLast? = some c → isSpace c = false) : trim (a ++ m ++ b) = m := by
  unfold trim
  rw [List.append_assoc, dropWhile_all _ _ ha]
  cases m with
  | nil =>
    have e : b.dropWhile isSpace = [] := by
      have := dropWhile_all (p := isSpace) b [] hb
      rw [List.append_nil] at this
      rw [this]; rfl
    rw [List.nil_append, e]; rfl
  | cons x m =>
    rw [dropWhile_head (x :: m ++ b) (by
      intro c hc; exact h1 c hc), List.reverse_append,
      dropWhile_all _ _ (fun c hc => hb c (List.mem_reverse.1 hc)),
      dropWhile_head _ (by intro c hc; rw [List.head?_reverse] at hc; exact h2 c hc),
      List.reverse_reverse]

theorem digit_facts {c : Char} (h : '0' ≤ c ∧ c ≤ '9') : isSpace c = false ∧ isAlpha c = false := by
  have h1 : 48 ≤ c.toNat := h.1
  have h2 : c.toNat ≤ 57 := h.2
  constructor
  · have ne : ∀ d : Char, d.toNat < 48 → (c == d) = false := by
      intro d hd
      rw [beq_eq_false_iff_ne]
      rintro rfl
      omega
    unfold isSpace
    rw [ne ' ' (by decide), ne '\t' (by decide), ne '\n' (by decide), ne '\x0b' (by decide),
      ne '\x0c' (by decide), ne '\r' (by decide)]
    rfl
  · have e1 : 'a'.toNat = 97 := by decide
    have e2 : 'A'.toNat = 65 := by decide
    unfold isAlpha
    rw [e1, e2]
    simp only [Bool.or_eq_false_iff, Bool.and_eq_false_iff, decide_eq_false_iff_not]
    omega

theorem denotes_facts {num : Str} {n : Int} (h : Denotes num n) :
    num ≠ [] ∧ ∀ c ∈ num, isSpace c = false ∧ isAlpha c = false := by
  cases h with
  | plain ds hd => exact ⟨hd.1, fun c hc => digit_facts (hd.2 c hc)⟩
  | plus ds hd =>
    refine ⟨by simp, fun c hc => ?_⟩
    rcases List.mem_cons.1 hc with rfl | hc
    · decide
    · exact digit_facts (hd.2 c hc)
  | minus ds hd =>
    refine ⟨by simp, fun c hc => ?_⟩
    rcases List.mem_cons.1 hc with rfl | hc
    · decide
    · exact digit_facts (hd.2 c hc)

theorem alpha_not_space {c : Char} (h : isAlpha c = true) : isSpace c = false := by
  cases e : isSpace c with
  | false => rfl
  | true =>
    unfold isSpace at e
    simp only [Bool.or_eq_true, beq_iff_eq] at e
    rcases e with ((((rfl | rfl) | rfl) | rfl) | rfl) | rfl <;> exact absurd h (by decide)

theorem space_not_alpha {c : Char} (h : isSpace c = true) : isAlpha c = false := by
  cases e : isAlpha c with
  | false => rfl
  | true => rw [alpha_not_space e] at h; cases h

/-- The text is cut into number and unit as one expects. The unit may be any word. -/
theorem parts (num unit w1 w2 w3 : Str) (hn : num ≠ [])
    (hc : ∀ c ∈ num, isSpace c = false ∧ isAlpha c = false)
    (hu : ∀ c, unit.head? = some c → isAlpha c = true)
    (hl : ∀ c, unit.getLast? = some c → isSpace c = false)
    (h1 : Blank w1) (h2 : Blank w2) (h3 : Blank w3) :
    unitPart (trim (w1 ++ num ++ w2 ++ unit ++ w3)) = unit ∧
      numberPart (trim (w1 ++ num ++ w2 ++ unit ++ w3)) = num := by
  have s1 := isSpace_blank h1
  have s2 := isSpace_blank h2
  have s3 := isSpace_blank h3
  have nh : ∀ c, num.head? = some c → isSpace c = false := fun c h =>
    (hc c (List.mem_of_mem_head? h)).1
  have nl : ∀ c, num.getLast? = some c → isSpace c = false := fun c h =>
    (hc c (List.mem_of_mem_getLast? h)).1
  have na : ∀ c ∈ num, (!isAlpha c) = true := fun c h => by rw [(hc c h).2]; rfl
  cases unit with
  | nil =>
    have e : w1 ++ num ++ w2 ++ [] ++ w3 = w1 ++ num ++ (w2 ++ w3) := by simp
    rw [e, trim_mid _ _ _ s1 (fun c h => (List.mem_append.1 h).elim (s2 c) (s3 c)) nh nl]
    have eu : unitPart num = [] := by
      have := dropWhile_all (p := fun c => !isAlpha c) num [] na
      rw [List.append_nil] at this
      exact this
    refine ⟨eu, ?_⟩
    unfold numberPart
    rw [eu]
    have := trim_mid [] num [] (by simp) (by simp) nh nl
    simpa using this
  | cons x unit =>
    have e : w1 ++ num ++ w2 ++ (x :: unit) ++ w3 = w1 ++ (num ++ w2 ++ (x :: unit)) ++ w3 := by simp
    rw [e, trim_mid _ _ _ s1 s3
      (fun c h => by
        cases num with
        | nil => exact absurd rfl hn
        | cons y num => exact nh c h)
      (fun c h => by
        rw [List.getLast?_append_of_ne_nil _ (by simp)] at h
        exact hl c h)]
    have eu : unitPart (num ++ w2 ++ (x :: unit)) = x :: unit := by
      unfold unitPart
      rw [dropWhile_all _ _ (fun c h => (List.mem_append.1 h).elim (na c)
        (fun h => by rw [space_not_alpha (s2 c h)]; rfl))]
      exact dropWhile_head _ (fun c h => by rw [hu c h]; rfl)
    refine ⟨eu, ?_⟩
    unfold numberPart
    rw [eu, List.length_append, Nat.add_sub_cancel, List.take_left']
    · have := trim_mid [] num w2 (by simp) s2 nh nl
      simpa using this
    · rfl

theorem spelling_facts {unit : Str} {u : TimeUnit} (h : (unit, u) ∈ spellings) :
    (∀ c, unit.head? = some c → isAlpha c = true) ∧
      (∀ c, unit.getLast? = some c → isSpace c = false) := by
  have key : ∀ p ∈ spellings, (p.1.head?.all isAlpha = true) ∧
      (p.1.getLast?.all (fun c => !isSpace c) = true) := by decide
  have := key _ h
  refine ⟨fun c hc => ?_, fun c hc => ?_⟩
  · have t := this.1
    rw [hc] at t; exact t
  · have t := this.2
    rw [hc] at t
    simpa using t

/-- **C39 (unit names).** A unit word is understood exactly when it is a documented spelling, and it
then denotes the documented unit. All other words are refused with an exception. -/
theorem C39_units (s : Str) (u : TimeUnit) :
    getUnits (plural s) = .ok u ↔ (s, u) ∈ spellings := by
  constructor
  · intro h
    have word : ∀ t : Str, plural s = t ++ ch "s" → s = t ++ ch "s" ∨ s = t := by
      intro t ht
      unfold plural at ht
      split at ht
      · exact .inr (List.append_cancel_right ht)
      · exact .inl ht
    have short : ∀ t : Str, plural s = t → t.length < 3 → s = t := by
      intro t ht h3
      unfold plural at ht
      split at ht
      · rename_i hc
        have : (s ++ ch "s").length = t.length := by rw [ht]
        rw [List.length_append] at this
        simp only [List.length_cons, List.length_nil] at this
        omega
      · exact ht
    unfold getUnits at h
    split at h
    · rename_i e; cases h
      rcases e with e | e | e
      · cases short _ e (by decide); decide
      · rcases word (ch "nano") e with rfl | rfl <;> decide
      · rcases word (ch "nanosecond") e with rfl | rfl <;> decide
    split at h
    · rename_i e; cases h
      rcases e with e | e | e
      · cases short _ e (by decide); decide
      · rcases word (ch "micro") e with rfl | rfl <;> decide
      · rcases word (ch "microsecond") e with rfl | rfl <;> decide
    split at h
    · rename_i e; cases h
      rcases e with e | e | e | e
      · cases short _ e (by decide); decide
      · cases short _ e (by decide); decide
      · rcases word (ch "milli") e with rfl | rfl <;> decide
      · rcases word (ch "millisecond") e with rfl | rfl <;> decide
    split at h
    · rename_i e; cases h
      rcases e with e | e
      · cases short _ e (by decide); decide
      · rcases word (ch "second") e with rfl | rfl <;> decide
    split at h
    · rename_i e; cases h
      rcases e with e | e
      · cases short _ e (by decide); decide
      · rcases word (ch "minute") e with rfl | rfl <;> decide
    split at h
    · rename_i e; cases h
      rcases e with e | e
      · cases short _ e (by decide); decide
      · rcases word (ch "hour") e with rfl | rfl <;> decide
    split at h
    · rename_i e; cases h
      rcases e with e | e
      · cases short _ e (by decide); decide
      · rcases word (ch "day") e with rfl | rfl <;> decide
    · cases h
  · intro h
    have key : ∀ p ∈ spellings, getUnits (plural p.1) = .ok p.2 := by decide
    exact key _ h

theorem getUnits_cases (s : Str) : (∃ u, getUnits s = .ok u) ∨ getUnits s = .err .config := by
  unfold getUnits
  repeat' (first | exact .inl ⟨_, rfl⟩ | exact .inr rfl | split)

/-- What a value that stands for `n` units means. -/
theorem ofValue_amount (env : Env) (o : DblOps) {v : Value} {n : Int} {u : TimeUnit}
    (h : Amount v n u) (hi : InI64 n) : ofValue env o v = convertI64 n u := by
  cases h with
  | int => rfl
  | long => rfl
  | text num unit w1 w2 w3 _ _ q hd hs h1 h2 h3 =>
    have f := denotes_facts hd
    have g := spelling_facts hs
    obtain ⟨e1, e2⟩ := parts num unit w1 w2 w3 f.1 f.2 g.1 g.2 h1 h2 h3
    show parseDuration env o _ = _
    unfold parseDuration
    rw [e1, e2]
    have hne : num.isEmpty = false := by
      cases num with
      | nil => exact absurd rfl f.1
      | cons => rfl
    rw [hne]
    show convertText env o num (plural unit) = _
    unfold convertText
    rw [(Value.lexCastI64_iff num n).2 ⟨hd, hi⟩, (C39_units unit u).2 hs]
    rfl

/-- **C39 (whole text).** A string made of a 64-bit decimal integer and a documented unit, with any
white space around and between, is that many of that unit: it reads like every other spelling of the
same amount. -/
theorem C39_spelling_irrelevant (env : Env) (o : DblOps) (v w : Value) (n : Int) (u : TimeUnit)
    (hv : Amount v n u) (hw : Amount w n u) (hi : InI64 n) : ofValue env o v = ofValue env o w := by
  rw [ofValue_amount env o hv hi, ofValue_amount env o hw hi]

/-- **C39 (other units).** An integer followed by a word that is not a documented unit is refused with
an exception, whatever the spacing. -/
theorem C39_unknown_unit (env : Env) (o : DblOps) (num unit w1 w2 w3 : Str) (n : Int) (q : Bool)
    (hd : Denotes num n) (hi : InI64 n) (hu : ∀ c ∈ unit, isAlpha c = true)
    (hn : ∀ u, (unit, u) ∉ spellings) (h1 : Blank w1) (h2 : Blank w2) (h3 : Blank w3) :
    ofValue env o (.scalar (.str (w1 ++ num ++ w2 ++ unit ++ w3) q)) = .err .config := by
  have f := denotes_facts hd
  obtain ⟨e1, e2⟩ := parts num unit w1 w2 w3 f.1 f.2
    (fun c h => hu c (List.mem_of_mem_head? h))
    (fun c h => alpha_not_space (hu c (List.mem_of_mem_getLast? h))) h1 h2 h3
  show parseDuration env o _ = _
  unfold parseDuration
  rw [e1, e2]
  have hne : num.isEmpty = false := by
    cases num with
    | nil => exact absurd rfl f.1
    | cons => rfl
  rw [hne]
  show convertText env o num (plural unit) = _
  unfold convertText
  rw [(Value.lexCastI64_iff num n).2 ⟨hd, hi⟩]
  rcases getUnits_cases (plural unit) with ⟨u, e⟩ | e
  · exact absurd ((C39_units unit u).1 e) (hn u)
  · rw [e]; rfl

example : ∃ u, getUnits (plural (ch "minute")) = .ok u := ⟨.minutes, by decide⟩
example : Amount (.scalar (.str (ch " 10  seconds") true)) 10 .seconds :=
  .text (ch "10") (ch "seconds") (ch " ") (ch "  ") [] 10 _ _
    (.plain (ch "10") ⟨by decide, by decide⟩) (by decide) (by unfold Blank; decide) (by unfold Blank; decide)
    (by unfold Blank; decide)
example : ∀ u, (ch "weeks", u) ∉ spellings := by intro u; cases u <;> decide

/-! ### Arithmetic -/

theorem okBind {α β : Type} (a : α) (f : α → Res β) : (Res.ok a).bind f = f a := rfl

/-- Every outcome for a 64-bit amount. -/
theorem outcome (n : Int) (u v : TimeUnit) (hi : InI64 n) :
    ((convertI64 n u).bind fun d => toUnit d v) =
      if ¬ InI64 (exact n u .seconds) then .ub
      else if n < 0 ∧ exact n u .seconds = 0 then .err .config
      else if ¬ InI64 (exact n u v) then .ub
      else if n < 0 ∧ exact n u v = 0 then .err .config
      else .ok (exact n u v) := by
  unfold convertI64
  rw [splitI64_eq n u hi]
  by_cases hs : InI64 (exact n u .seconds)
  swap
  · rw [if_neg hs, if_pos hs]; rfl
  rw [if_pos hs, if_neg (fun h => h hs), okBind]
  have hpos : 0 < nanosPer u := by cases u <;> decide
  have hvpos : 0 < nanosPer v := by cases v <;> decide
  have esec : exact n u .seconds = (n * nanosPer u).tdiv 1000000000 := rfl
  have sgn : ∀ k : Int, 0 < k → (0 ≤ n → 0 ≤ (n * nanosPer u).tdiv k) ∧
      (n < 0 → (n * nanosPer u).tdiv k ≤ 0) := by
    intro k hk
    refine ⟨fun h => Int.tdiv_nonneg (Int.mul_nonneg h (Int.le_of_lt hpos)) (Int.le_of_lt hk), fun h => ?_⟩
    have : n * nanosPer u ≤ 0 := Int.mul_nonpos_of_nonpos_of_nonneg (Int.le_of_lt h) (Int.le_of_lt hpos)
    have e : n * nanosPer u = -(-(n * nanosPer u)) := by omega
    rw [e, Int.neg_tdiv]
    have := Int.tdiv_nonneg (a := -(n * nanosPer u)) (b := k) (by omega) (Int.le_of_lt hk)
    omega
  have s1 := sgn 1000000000 (by decide)
  have s2 := sgn (nanosPer v) hvpos
  show ((if (decide (n ≥ 0) != decide ((n * nanosPer u).tdiv 1000000000 ≥ 0)) = true then _ else _ :
    Res (Int × Int)).bind _) = _
  by_cases hz : n < 0 ∧ exact n u .seconds = 0
  · rw [if_pos hz, if_pos (bne_decide_true (by rw [esec] at hz; omega))]; rfl
  rw [if_neg hz]
  rw [esec] at hz
  rw [if_neg (by rw [bne_decide_false (by omega)]; decide), okBind]
  unfold toUnit
  rw [inUnit_eq _ _ (esec ▸ hs)]
  change ((if InI64 (exact n u v) then Res.ok (exact n u v) else Res.ub).bind _) = _
  by_cases hr : InI64 (exact n u v)
  swap
  · rw [if_neg hr, if_pos hr]; rfl
  rw [if_pos hr, if_neg (fun h => h hr), okBind]
  show (if (decide (exact n u v ≥ 0) != decide ((n * nanosPer u).tdiv 1000000000 ≥ 0)) = true then _
    else _ : Res Int) = _
  have er : exact n u v = (n * nanosPer u).tdiv (nanosPer v) := rfl
  rw [← er] at s2
  by_cases hq : n < 0 ∧ exact n u v = 0
  · rw [if_pos hq, if_pos (bne_decide_true (by omega))]
  · rw [if_neg hq, if_neg (by rw [bne_decide_false (by omega)]; decide)]

theorem getDuration_amount (env : Env) (o : DblOps) (root v : Value) (p : Str) (n : Int)
    (u w : TimeUnit) (hv : Value.getValue env root p = .ok v) (ha : Amount v n u) (hi : InI64 n) :
    getDuration env o root p w = (convertI64 n u).bind fun d => toUnit d w := by
  unfold getDuration
  rw [hv, okBind, ofValue_amount env o ha hi]

/-- **C38 (partial).** If the value at the path stands for `n` units `u`, the number of seconds and the
result fit in 64 bits, and the amount is not negative (or is at least a second and at least one unit
`w` in size), `get_duration(path, w)` is the exact quotient cut towards zero. Missing: results out of
range (`C38_overflow_undefined`) and small negative amounts (`C38_negative_refused`), where the code
does not do what the property asks for. -/
theorem C38_exact_partial (env : Env) (o : DblOps) (root v : Value) (p : Str) (n : Int)
    (u w : TimeUnit) (hv : Value.getValue env root p = .ok v) (ha : Amount v n u) (hi : InI64 n)
    (hs : InI64 (exact n u .seconds)) (hr : InI64 (exact n u w))
    (hn : 0 ≤ n ∨ (exact n u .seconds ≠ 0 ∧ exact n u w ≠ 0)) :
    getDuration env o root p w = .ok ((n * nanosPer u).tdiv (nanosPer w)) := by
  rw [getDuration_amount env o root v p n u w hv ha hi, outcome n u w hi,
    if_neg (fun h => h hs), if_neg (by omega), if_neg (fun h => h hr), if_neg (by omega)]
  rfl

/-- **C38 (violated).** When the number of seconds or the result does not fit in 64 bits the code does
not throw: the multiplication overflows, which is undefined behaviour. -/
theorem C38_overflow_undefined (env : Env) (o : DblOps) (root v : Value) (p : Str) (n : Int)
    (u w : TimeUnit) (hv : Value.getValue env root p = .ok v) (ha : Amount v n u) (hi : InI64 n)
    (hr : ¬ InI64 (exact n u .seconds) ∨ (¬ InI64 (exact n u w) ∧ ¬ (n < 0 ∧ exact n u .seconds = 0))) :
    getDuration env o root p w = .ub := by
  rw [getDuration_amount env o root v p n u w hv ha hi, outcome n u w hi]
  rcases hr with h | ⟨h, h'⟩
  · rw [if_pos h]
  · by_cases hs : InI64 (exact n u .seconds)
    · rw [if_neg (fun x => x hs), if_neg h', if_pos h]
    · rw [if_pos hs]

/-- **C38 (violated).** A negative amount smaller than a second, or smaller than the unit asked for, is
refused as an overflow although the result fits. -/
theorem C38_negative_refused (env : Env) (o : DblOps) (root v : Value) (p : Str) (n : Int)
    (u w : TimeUnit) (hv : Value.getValue env root p = .ok v) (ha : Amount v n u) (hi : InI64 n)
    (hs : InI64 (exact n u .seconds)) (hr : InI64 (exact n u w)) (hn : n < 0)
    (hz : exact n u .seconds = 0 ∨ exact n u w = 0) : getDuration env o root p w = .err .config := by
  rw [getDuration_amount env o root v p n u w hv ha hi, outcome n u w hi, if_neg (fun h => h hs)]
  by_cases h : exact n u .seconds = 0
  · rw [if_pos ⟨hn, h⟩]
  · rw [if_neg (fun x => h x.2), if_neg (fun x => x hr), if_pos ⟨hn, hz.resolve_left h⟩]

/-- A configuration with one string at `d`. -/
def exDur (s : Str) : Value := .obj [(ch "d", .scalar (.str s true))] true false

theorem exDur_get (s : Str) :
    Value.getValue Tokenizer.exEnv (exDur s) (ch "d") = .ok (.scalar (.str s true)) := by
  rfl

/-- 90 seconds are one minute (and a half): the hypotheses of `C38_exact_partial` hold. -/
example (o : DblOps) :
    getDuration Tokenizer.exEnv o (exDur (ch "90 s")) (ch "d") .minutes = .ok 1 :=
  C38_exact_partial _ o _ _ _ 90 .seconds .minutes (exDur_get _)
    (.text (ch "90") (ch "s") [] (ch " ") [] 90 _ _ (.plain (ch "90") ⟨by decide, by decide⟩)
      (by decide) (by unfold Blank; decide) (by unfold Blank; decide) (by unfold Blank; decide))
    (by decide) (by decide) (by decide) (by decide)

/-- -500 ms cannot be read as milliseconds. -/
example (o : DblOps) :
    getDuration Tokenizer.exEnv o (exDur (ch "-500 ms")) (ch "d") .milliseconds = .err .config :=
  C38_negative_refused _ o _ _ _ (-500) .milliseconds .milliseconds (exDur_get _)
    (.text (ch "-500") (ch "ms") [] (ch " ") [] (-500) _ _
      (.minus (ch "500") ⟨by decide, by decide⟩)
      (by decide) (by unfold Blank; decide) (by unfold Blank; decide) (by unfold Blank; decide))
    (by decide) (by decide) (by decide) (by decide) (by decide)

/-- 300 years in nanoseconds: undefined. -/
example (o : DblOps) :
    getDuration Tokenizer.exEnv o (exDur (ch "109500 d")) (ch "d") .nanoseconds = .ub :=
  C38_overflow_undefined _ o _ _ _ 109500 .days .nanoseconds (exDur_get _)
    (.text (ch "109500") (ch "d") [] (ch " ") [] 109500 _ _
      (.plain (ch "109500") ⟨by decide, by decide⟩)
      (by decide) (by unfold Blank; decide) (by unfold Blank; decide) (by unfold Blank; decide))
    (by decide) (by decide)

/-! ### Fractions -/

/-- **C52 (violated).** A number with a decimal point whose number of seconds has no fraction (or is
zero) is refused: `1.0 s` is not read as `1 s`. This holds for every arithmetic in which zero is not a
normal number and zero times anything is zero. -/
theorem C52_whole_fraction_refused (env : Env) (o : DblOps) (num w1 w2 w3 : Str) (x : Dbl) (q : Bool)
    (hn : num ≠ []) (hc : ∀ c ∈ num, isSpace c = false ∧ isAlpha c = false)
    (hi : lexCastI64 num = none) (hp : env.parseDouble num = some x)
    (hz : o.fmod x (o.ofInt 1) = o.ofInt 0) (hm : ∀ y, o.mul (o.ofInt 0) y = o.ofInt 0)
    (hnorm : o.isNormal (o.ofInt 0) = false)
    (h1 : Blank w1) (h2 : Blank w2) (h3 : Blank w3) :
    ofValue env o (.scalar (.str (w1 ++ num ++ w2 ++ ch "s" ++ w3) q)) = .err .config := by
  have g := spelling_facts (unit := ch "s") (u := .seconds) (by decide)
  obtain ⟨e1, e2⟩ := parts num (ch "s") w1 w2 w3 hn hc g.1 g.2 h1 h2 h3
  show parseDuration env o _ = _
  unfold parseDuration
  rw [e1, e2]
  have hne : num.isEmpty = false := by
    cases num with
    | nil => exact absurd rfl hn
    | cons => rfl
  rw [hne]
  show convertText env o num (plural (ch "s")) = _
  unfold convertText
  rw [hi, hp, (C39_units (ch "s") .seconds).2 (by decide)]
  show convertDouble env o x .seconds = _
  unfold convertDouble
  have e : (splitDouble o x .seconds).2 = o.ofInt 0 := by
    show o.mul (o.fmod x (o.ofInt 1)) _ = _
    rw [hz, hm]
  rw [e, hnorm, Bool.not_false, Bool.or_true]
  rfl

/-- Fixed-point arithmetic with three decimals as an example of `DblOps`. -/
def exOps : DblOps where
  ofInt n := n * 1000
  div a b := (a * 1000).tdiv b
  mul a b := (a * b).tdiv 1000
  fmod a b := a.tmod b
  isNormal a := a != 0
  toInt a := some (a.tdiv 1000)

/-- An environment that reads `1.0`. -/
def exEnvD : Env := { Tokenizer.exEnv with parseDouble := fun s => if s = ch "1.0" then some (1000 : Int) else none }

example : ofValue exEnvD exOps (.scalar (.str (ch "1.0 s") true)) = .err .config :=
  C52_whole_fraction_refused exEnvD exOps (ch "1.0") [] (ch " ") [] (1000 : Int) true (by decide) (by decide)
    (by decide) (by decide) (by decide) (by intro y; show (0 * 1000 * y).tdiv 1000 = 0; simp) (by decide)
    (by unfold Blank; decide) (by unfold Blank; decide) (by unfold Blank; decide)

end Duration
end Hocon
