import Verif.Lemmas.ParseBuilt
import Verif.Lemmas.ConfigParserLemmas
import Verif.Include

/-!
# What the parser builds satisfies every predicate that is determined by the parts of a value
-/

set_option autoImplicit false
set_option linter.unusedSectionVars false

namespace Hocon
namespace Resolve
open Value ConfigParser

/-- Everything the includer delivers satisfies `P`. -/
def IncP (P : Value → Prop) (inc : Includer) : Prop :=
  ∀ name n v m, inc.file name n = .ok (v, m) ∨ inc.heuristic name n = .ok (v, m) → P v

/-- Fields with distinct keys that satisfy `P`. -/
def FieldsP (P : Value → Prop) (fs : Fields) : Prop := (keysOf fs).Nodup ∧ ∀ f ∈ fs, P f.2

section
variable {P : Value → Prop} {E : List Value → Prop} (hP : Built P E)
include hP

theorem Built.concatenate {env : Env} {ps : List Value} {o : Option Value} (h : ∀ v ∈ ps, P v)
    (hc : concatenate env ps = .ok o) : ∀ v, o = some v → P v := by
  simp only [Value.concatenate, Res.bind_eq_ok] at hc
  obtain ⟨j, hj, hc⟩ := hc
  have hjj := hP.consolidate h hj
  split at hc
  · cases hc; rintro v ⟨⟩
  · cases hc; rintro v ⟨⟩; exact hjj _ (by simp)
  · simp only [Res.bind_eq_ok] at hc
    obtain ⟨y, hy, hc⟩ := hc
    cases hc
    rintro w ⟨⟩
    exact hP.mkConcat' hjj hy

theorem Built.newObj {fs : Fields} (h : FieldsP P fs) : P (newObj fs) := hP.obj _ _ h.1 h.2

theorem Built.nest {v : Value} (h : P v) : (p : Path) → P (nest p v)
  | [] => h
  | k :: p => hP.newObj ⟨by simp [keysOf], by simpa using Built.nest h p⟩

theorem Built.putMerged {fs fs' : Fields} {k : Str} {v : Value} (hf : FieldsP P fs) (hv : P v)
    (h : putMerged fs k v = .ok fs') : FieldsP P fs' := by
  have key : ∀ m, P m → FieldsP P (putKey k m fs) := by
    intro m hm
    refine ⟨putKey_nodup hf.1, ?_⟩
    intro f h'
    rcases mem_putKey h' with rfl | h'
    · exact hm
    · exact hf.2 f h'
  rw [ConfigParser.putMerged] at h
  split at h
  · cases h; exact key v hv
  · rename_i old hold
    obtain ⟨m, hm, h⟩ := Res.bind_eq_ok.1 h
    cases h
    exact key m (hP.withFallback _ _ _ hv (hP.findKey hf.2 hold) hm)

theorem Built.putField {json : Bool} {fs fs' : Fields} {p : Path} {v : Value} (hf : FieldsP P fs)
    (hv : P v) (h : putField json fs p v = .ok fs') : FieldsP P fs' := by
  match p with
  | [] => simp [ConfigParser.putField] at h
  | k :: p =>
    have key : ConfigParser.putMerged fs k (Value.nest p v) = .ok fs' := by
      cases json with
      | false => rwa [putField_conf] at h
      | true =>
        cases p with
        | nil =>
          simp only [ConfigParser.putField] at h
          split at h
          · cases h
          · exact h
        | cons k' p => simp [ConfigParser.putField] at h
    exact hP.putMerged hf (hP.nest hv p) key

theorem Built.putAll : (gs fs fs' : Fields) → FieldsP P fs → (∀ f ∈ gs, P f.2) →
    putAll fs gs = .ok fs' → FieldsP P fs'
  | [], fs, fs', hf, _, h => by cases h; exact hf
  | (k, v) :: gs, fs, fs', hf, hg, h => by
    rw [ConfigParser.putAll] at h
    obtain ⟨m, hm, h⟩ := Res.bind_eq_ok.1 h
    exact Built.putAll gs m fs' (hP.putMerged hf (hg (k, v) (by simp)) hm)
      (fun f hf => hg f (by simp [hf])) h

theorem Built.parseInclude {env : Env} {inc : Includer} (hi : IncP P inc) {arr : Nat}
    {k : IncludeKind} {ds : List Node} {fs fs' : Fields} {n m : Nat} (hf : FieldsP P fs)
    (h : parseInclude env inc arr k ds fs n = .ok (fs', m)) : FieldsP P fs' := by
  simp only [ConfigParser.parseInclude, Res.bind_eq_ok] at h
  obtain ⟨⟨o, n1⟩, h1, gs', h2, h4⟩ := h
  simp only [Res.ok.injEq, Prod.mk.injEq] at h4
  obtain ⟨rfl, rfl⟩ := h4
  have key : P o := by
    cases k with
    | file =>
      simp only [callIncluder, Res.bind_eq_ok] at h1
      obtain ⟨⟨name, n'⟩, _, h1⟩ := h1
      exact hi name n' o _ (.inl h1)
    | heuristic =>
      simp only [callIncluder, Res.bind_eq_ok] at h1
      obtain ⟨⟨name, n'⟩, _, h1⟩ := h1
      exact hi name n' o _ (.inr h1)
    | _ => cases h1
  simp only [putIncluded] at h2
  split at h2
  · cases h2
  · split at h2
    · exact hP.putAll _ _ _ hf (hP.fields _ _ _ key) h2
    · cases h2
    · cases h2


theorem Built.getValue {env : Env} {t : Tok} {n m : Nat} {v : Value}
    (h : getValue env t n = .ok (v, m)) : P v := by
  cases t with
  | value s text l => cases h; exact hP.scalar _
  | unquoted s l => cases h; exact hP.scalar _
  | subst opt e l =>
    simp only [ConfigParser.getValue, Res.bind_eq_ok] at h
    obtain ⟨p, _, h⟩ := h
    cases h
    exact hP.ref _ _ _ _
  | _ => simp [ConfigParser.getValue] at h

theorem Built.plusValue {env : Env} {outer : Path} {v w : Value} {n m : Nat} (hv : P v)
    (h : plusValue env outer v n = .ok (w, m)) : P w := by
  simp only [ConfigParser.plusValue, Res.bind_eq_ok] at h
  obtain ⟨o, ho, h⟩ := h
  cases o with
  | none => cases h
  | some c =>
    cases h
    refine hP.concatenate ?_ ho _ rfl
    intro x hx
    simp only [List.mem_cons, List.not_mem_nil, or_false] at hx
    rcases hx with rfl | rfl
    · exact hP.ref _ _ _ _
    · exact (hP.list _).2 (by simpa using hv)

mutual
theorem Built.parseValue {env : Env} {inc : Includer} (hi : IncP P inc) (json : Bool) (arr : Nat)
    (outer : Option Path) (c : Node) (n m : Nat) (v : Value)
    (h : parseValue env inc json arr outer c n = .ok (v, m)) : P v := by
  match c with
  | .simple t =>
    rw [ConfigParser.parseValue] at h
    exact hP.getValue h
  | .object cs =>
    simp only [ConfigParser.parseValue, Res.bind_eq_ok] at h
    obtain ⟨⟨fs, n'⟩, h1, h2⟩ := h
    simp only [Res.ok.injEq, Prod.mk.injEq] at h2
    exact h2.1 ▸ hP.newObj (Built.parseFields hi json arr outer cs [] fs n n'
      ⟨by simp [keysOf], by simp⟩ h1)
  | .array cs =>
    simp only [ConfigParser.parseValue, Res.bind_eq_ok] at h
    obtain ⟨⟨vs, n'⟩, h1, h2⟩ := h
    simp only [Res.ok.injEq, Prod.mk.injEq] at h2
    exact h2.1 ▸ (hP.list _).2 (Built.parseElems hi json (arr + 1) outer cs n n' vs h1)
  | .concat cs =>
    rw [ConfigParser.parseValue] at h
    split at h
    · cases h
    · simp only [Res.bind_eq_ok] at h
      obtain ⟨⟨vs, n'⟩, h1, o, h2, w, h3, h4⟩ := h
      simp only [Res.ok.injEq, Prod.mk.injEq] at h4
      cases o with
      | none => cases h3
      | some x =>
        simp only [nonNull, Res.ok.injEq] at h3
        subst h3
        exact h4.1 ▸ hP.concatenate (Built.parseElems hi json arr outer cs n n' vs h1) h2 x rfl
  | .single t => simp [ConfigParser.parseValue] at h
  | .comment t => simp [ConfigParser.parseValue] at h
  | .path p ts => simp [ConfigParser.parseValue] at h
  | .field cs => simp [ConfigParser.parseValue] at h
  | .incl cs k => simp [ConfigParser.parseValue] at h
theorem Built.parseElems {env : Env} {inc : Includer} (hi : IncP P inc) (json : Bool) (arr : Nat)
    (outer : Option Path) (cs : List Node) (n m : Nat) (vs : List Value)
    (h : parseElems env inc json arr outer cs n = .ok (vs, m)) : ∀ v ∈ vs, P v := by
  match cs with
  | [] =>
    simp only [ConfigParser.parseElems, Res.ok.injEq, Prod.mk.injEq] at h
    simp [← h.1]
  | c :: cs =>
    rw [ConfigParser.parseElems] at h
    split at h
    · simp only [Res.bind_eq_ok] at h
      obtain ⟨⟨v, n1⟩, h1, ⟨ws, n2⟩, h2, h3⟩ := h
      simp only [Res.ok.injEq, Prod.mk.injEq] at h3
      rw [← h3.1]
      intro w hw
      rcases List.mem_cons.1 hw with rfl | hw
      · exact Built.parseValue hi json arr outer c n n1 _ h1
      · exact Built.parseElems hi json arr outer cs n1 n2 ws h2 w hw
    · exact Built.parseElems hi json arr outer cs n m vs h
theorem Built.parseFieldValue {env : Env} {inc : Includer} (hi : IncP P inc) (json : Bool) (arr : Nat)
    (outer : Option Path) (cs : List Node) (n m : Nat) (v : Value)
    (h : parseFieldValue env inc json arr outer cs n = .ok (v, m)) : P v := by
  match cs with
  | [] => simp [ConfigParser.parseFieldValue] at h
  | c :: cs =>
    rw [ConfigParser.parseFieldValue] at h
    split at h
    · exact Built.parseValue hi json arr outer c n m v h
    · exact Built.parseFieldValue hi json arr outer cs n m v h
theorem Built.parseFields {env : Env} {inc : Includer} (hi : IncP P inc) (json : Bool) (arr : Nat)
    (outer : Option Path) (cs : List Node) (fs fs' : Fields) (n m : Nat)
    (hf : FieldsP P fs) (h : parseFields env inc json arr outer cs fs n = .ok (fs', m)) :
    FieldsP P fs' := by
  match cs with
  | [] =>
    simp only [ConfigParser.parseFields, Res.ok.injEq, Prod.mk.injEq] at h
    exact h.1 ▸ hf
  | .incl ds k :: cs =>
    rw [ConfigParser.parseFields] at h
    split at h
    · exact Built.parseFields hi json arr outer cs fs fs' n m hf h
    · simp only [Res.bind_eq_ok] at h
      obtain ⟨⟨gs, n1⟩, h1, h2⟩ := h
      exact Built.parseFields hi json arr outer cs gs fs' n1 m (hP.parseInclude hi hf h1) h2
  | .field ds :: cs =>
    simp only [ConfigParser.parseFields, Res.bind_eq_ok] at h
    obtain ⟨⟨p, ts⟩, h1, h⟩ := h
    simp only at h
    split at h
    · split at h
      · cases h
      · simp only [Res.bind_eq_ok] at h
        obtain ⟨⟨v, n1⟩, h2, ⟨w, n2⟩, h3, gs, h4, h5⟩ := h
        have hv := Built.parseFieldValue hi json (arr + 1) _ ds n n1 v h2
        exact Built.parseFields hi json arr outer cs gs fs' n2 m
          (hP.putField hf (hP.plusValue hv h3) h4) h5
    · simp only [Res.bind_eq_ok] at h
      obtain ⟨⟨v, n1⟩, h2, gs, h4, h5⟩ := h
      exact Built.parseFields hi json arr outer cs gs fs' n1 m
        (hP.putField hf (Built.parseFieldValue hi json arr _ ds n n1 v h2) h4) h5
  | .single t :: cs =>
    rw [ConfigParser.parseFields] at h
    exact Built.parseFields hi json arr outer cs fs fs' n m hf h
    all_goals simp
  | .comment t :: cs =>
    rw [ConfigParser.parseFields] at h
    exact Built.parseFields hi json arr outer cs fs fs' n m hf h
    all_goals simp
  | .path p ts :: cs =>
    rw [ConfigParser.parseFields] at h
    exact Built.parseFields hi json arr outer cs fs fs' n m hf h
    all_goals simp
  | .simple t :: cs =>
    rw [ConfigParser.parseFields] at h
    exact Built.parseFields hi json arr outer cs fs fs' n m hf h
    all_goals simp
  | .object ds :: cs =>
    rw [ConfigParser.parseFields] at h
    exact Built.parseFields hi json arr outer cs fs fs' n m hf h
    all_goals simp
  | .array ds :: cs =>
    rw [ConfigParser.parseFields] at h
    exact Built.parseFields hi json arr outer cs fs fs' n m hf h
    all_goals simp
  | .concat ds :: cs =>
    rw [ConfigParser.parseFields] at h
    exact Built.parseFields hi json arr outer cs fs fs' n m hf h
    all_goals simp
end

theorem Built.parseRoot {env : Env} {inc : Includer} (hi : IncP P inc) (json : Bool) :
    (cs : List Node) → (r : Option Value) → (n m : Nat) → (o : Option Value) →
    (∀ v, r = some v → P v) → parseRoot env inc json cs r n = .ok (o, m) → ∀ v, o = some v → P v
  | [], r, n, m, o, hv, h => by cases h; exact hv
  | c :: cs, r, n, m, o, hv, h => by
    rw [ConfigParser.parseRoot.eq_def] at h
    simp only at h
    split at h
    · simp only [Res.bind_eq_ok] at h
      obtain ⟨⟨v, n1⟩, h1, h2⟩ := h
      exact Built.parseRoot hi json cs (some v) n1 m o
        (by rintro w ⟨⟩; exact hP.parseValue hi json 0 none c n n1 v h1) h2
    · split at h
      · cases h; exact hv
      · exact Built.parseRoot hi json cs r n m o hv h

theorem Built.parseText {env : Env} {inc : Includer} (hi : IncP P inc) {fl : PathParser.Syntax} {s : Str}
    {n m : Nat} {v : Value} (h : parseText env inc fl s n = .ok (v, m)) : P v := by
  simp only [ConfigParser.parseText, Res.bind_eq_ok] at h
  obtain ⟨cs, _, ⟨o, n1⟩, h2, w, h3, h4⟩ := h
  cases o with
  | none => cases h3
  | some x =>
    simp only [nonNull, Res.ok.injEq] at h3
    cases h4
    subst h3
    exact hP.parseRoot hi _ cs none n _ _ (by rintro v ⟨⟩) h2 x rfl

theorem Built.mergeFound {so : SyntaxOpt} {am : Bool} {conf json : Nat → Res (Value × Nat)} {n m : Nat}
    {v : Value} (hc : ∀ n v m, conf n = .ok (v, m) → P v) (hj : ∀ n v m, json n = .ok (v, m) → P v)
    (h : Files.mergeFound so am conf json n = .ok (v, m)) : P v := by
  simp only [Files.mergeFound, Res.bind_eq_ok] at h
  obtain ⟨c, h1, j, h2, h3⟩ := h
  have htry : ∀ {α : Type} {r : Res α} {o : Option α}, Files.tryParse r = .ok o →
      ∀ a, o = some a → r = .ok a := by
    intro α r o ho a ha
    subst ha
    cases r with
    | ok b => simp only [Files.tryParse, Res.ok.injEq, Option.some.injEq] at ho; rw [ho]
    | err e =>
      simp only [Files.tryParse] at ho
      split at ho <;> cases ho
    | ub => cases ho
    | fuel => cases ho
  have hb : P (c.getD (Value.empty, n)).1 := by
    cases c with
    | none => exact hP.empty
    | some x =>
      split at h1
      · obtain ⟨x, y⟩ := x
        exact hc _ _ _ (htry h1 _ rfl)
      · cases h1
  have hjj : ∀ x, j = some x → P x.1 := by
    rintro x rfl
    split at h2
    · have := htry h2 _ rfl
      simp only [Res.bind_eq_ok] at this
      obtain ⟨⟨w, n1⟩, h5, y, h6, h7⟩ := this
      cases h7
      exact hP.withFallback _ _ _ hb (hj _ _ _ h5) h6
    · cases h2
  split at h3
  · cases h3
  · cases j with
    | none => cases h3; exact hb
    | some x => cases h3; exact hjj _ rfl

theorem Built.includer {load : Files.Loader} {res : Value → Res Value} {dir : Str}
    (hl : ∀ f s n v m, load f s n = .ok (v, m) → P v) (hres : ∀ v w, P v → res v = .ok w → P w) :
    IncP P (Files.includer load res dir) := by
  have key : ∀ name n v m, Files.includeName load dir name n = .ok (v, m) → P v := by
    intro name n v m h
    rw [Files.includeName] at h
    split at h
    · exact hl _ _ _ _ _ h
    · exact hP.mergeFound (hl _ _) (hl _ _) h
  intro name n v m h
  rcases h with h | h
  · simp only [Files.includer, Res.bind_eq_ok] at h
    obtain ⟨⟨w, n1⟩, h1, x, h2, h3⟩ := h
    cases h3
    exact hres _ _ (key _ _ _ _ h1) h2
  · exact key _ _ _ _ h

theorem Built.loadFile {env : Env} {fs : Files.FS} {res : Value → Res Value}
    (hres : ∀ v w, P v → res v = .ok w → P w) : (fuel : Nat) → ∀ f s n v m,
    Files.loadFile env fs res fuel f s n = .ok (v, m) → P v
  | 0, _, _, _, _, _, h => by cases h
  | fuel + 1, f, s, n, v, m, h => by
    simp only [Files.loadFile, Res.bind_eq_ok] at h
    obtain ⟨⟨w, n1⟩, h1, x, h2, h3⟩ := h
    cases h3
    have := hP.parseText (hP.includer (Built.loadFile hres fuel) hres) h1
    simp only [Files.forceObject] at h2
    split at h2
    · cases h2; exact this
    · split at h2 <;> cases h2

/-- Everything `config::parse_string` returns satisfies `P`. -/
theorem Built.parseString {ι : Type} {env : Env} {fs : Files.FS} {res : Value → Res Value}
    (hres : ∀ v w, P v → res v = .ok w → P w) {fuel : Nat} {s : Str} {o : ParseOptions ι}
    {v : Value} (h : Files.parseString env fs res fuel s o = .ok v) : P v := by
  simp only [Files.parseString, Files.parseableParseString, Res.bind_eq_ok] at h
  obtain ⟨⟨w, n1⟩, h1, h2⟩ := h
  have := hP.parseText (hP.includer (hP.loadFile hres fuel) hres) h1
  simp only [Files.forceObject] at h2
  split at h2
  · cases h2; exact this
  · split at h2 <;> cases h2

/-- Everything `config::parse_file_any_syntax` returns satisfies `P`. -/
theorem Built.parseFile {ι : Type} {env : Env} {fs : Files.FS} {res : Value → Res Value}
    (hres : ∀ v w, P v → res v = .ok w → P w) {fuel : Nat} {name : Str} {o : ParseOptions ι}
    {v : Value} (h : Files.parseFileAnySyntax env fs res fuel name o = .ok v) : P v := by
  simp only [Files.parseFileAnySyntax, Res.bind_eq_ok] at h
  obtain ⟨⟨w, n1⟩, h1, h2⟩ := h
  cases h2
  have hl := hP.loadFile (env := env) (fs := fs) hres fuel
  split at h1
  · exact hl _ _ _ _ _ h1
  · exact hP.mergeFound (hl _ _) (hl _ _) h1

end

end Resolve
end Hocon
