import Verif.Lemmas.IncludeLemmas

/-!
# More fuel does not change the result of parsing a file
-/

set_option autoImplicit false

namespace Hocon

/-- `y` is `x`, or `x` ran out of fuel. -/
def Res.Le {α : Type} (x y : Res α) : Prop := x = .fuel ∨ x = y

theorem Res.Le.rfl {α : Type} {x : Res α} : x.Le x := .inr (.refl _)

theorem Res.Le.bind {α β : Type} {x y : Res α} {f g : α → Res β} (h : x.Le y)
    (hf : ∀ a, (f a).Le (g a)) : (x >>= f).Le (y >>= g) := by
  rcases h with rfl | rfl
  · exact .inl (.refl _)
  · cases x with
    | ok a => exact hf a
    | err e => exact .inr (.refl _)
    | ub => exact .inr (.refl _)
    | fuel => exact .inl (.refl _)

theorem Res.Le.ite {α : Type} {c : Prop} [Decidable c] {x y x' y' : Res α} (h1 : x.Le x')
    (h2 : y.Le y') : (if c then x else y).Le (if c then x' else y') := by
  split <;> assumption

namespace ConfigParser
open Value DocParser PathParser

/-- The second includer agrees with the first one where that does not run out of fuel. -/
structure Includer.Le (i j : Includer) : Prop where
  file : ∀ name n, (i.file name n).Le (j.file name n)
  heuristic : ∀ name n, (i.heuristic name n).Le (j.heuristic name n)

theorem callIncluder_le {env : Env} {i j : Includer} (h : i.Le j) (kind : IncludeKind)
    (cs : List Node) (n : Nat) : (callIncluder env i kind cs n).Le (callIncluder env j kind cs n) := by
  cases kind with
  | file => exact Res.Le.rfl.bind fun _ => h.file _ _
  | heuristic => exact Res.Le.rfl.bind fun _ => h.heuristic _ _
  | _ => exact .rfl

theorem parseInclude_le {env : Env} {i j : Includer} (h : i.Le j) (arr : Nat) (kind : IncludeKind)
    (cs : List Node) (fs : Fields) (n : Nat) :
    (parseInclude env i arr kind cs fs n).Le (parseInclude env j arr kind cs fs n) :=
  (callIncluder_le h kind cs n).bind fun _ => .rfl

mutual
theorem parseValue_le {env : Env} {i j : Includer} (h : i.Le j) (json : Bool) (arr : Nat)
    (outer : Option Path) : (v : Node) → (n : Nat) →
    (parseValue env i json arr outer v n).Le (parseValue env j json arr outer v n)
  | .simple t, n => by simp only [parseValue]; exact .rfl
  | .object cs, n => by
    simp only [parseValue]
    exact (parseFields_le h json arr outer cs [] n).bind fun _ => .rfl
  | .array cs, n => by
    simp only [parseValue]
    exact (parseElems_le h json _ outer cs n).bind fun _ => .rfl
  | .concat cs, n => by
    simp only [parseValue]
    exact .ite .rfl ((parseElems_le h json _ outer cs n).bind fun _ => .rfl)
  | .single _, _ => by simp only [parseValue]; exact .rfl
  | .comment _, _ => by simp only [parseValue]; exact .rfl
  | .path .., _ => by simp only [parseValue]; exact .rfl
  | .field _, _ => by simp only [parseValue]; exact .rfl
  | .incl .., _ => by simp only [parseValue]; exact .rfl
theorem parseElems_le {env : Env} {i j : Includer} (h : i.Le j) (json : Bool) (arr : Nat)
    (outer : Option Path) : (cs : List Node) → (n : Nat) →
    (parseElems env i json arr outer cs n).Le (parseElems env j json arr outer cs n)
  | [], n => by simp only [parseElems]; exact .rfl
  | c :: cs, n => by
    simp only [parseElems]
    exact .ite ((parseValue_le h json arr outer c n).bind fun x =>
      (parseElems_le h json arr outer cs x.2).bind fun _ => .rfl) (parseElems_le h json arr outer cs n)
theorem parseFieldValue_le {env : Env} {i j : Includer} (h : i.Le j) (json : Bool) (arr : Nat)
    (outer : Option Path) : (cs : List Node) → (n : Nat) →
    (parseFieldValue env i json arr outer cs n).Le (parseFieldValue env j json arr outer cs n)
  | [], n => by simp only [parseFieldValue]; exact .rfl
  | c :: cs, n => by
    simp only [parseFieldValue]
    exact .ite (parseValue_le h json arr outer c n) (parseFieldValue_le h json arr outer cs n)
theorem parseFields_le {env : Env} {i j : Includer} (h : i.Le j) (json : Bool) (arr : Nat)
    (outer : Option Path) : (cs : List Node) → (fs : Fields) → (n : Nat) →
    (parseFields env i json arr outer cs fs n).Le (parseFields env j json arr outer cs fs n)
  | [], fs, n => by simp only [parseFields]; exact .rfl
  | .incl ics kind :: rest, fs, n => by
    simp only [parseFields]
    exact .ite (parseFields_le h json arr outer rest fs n)
      ((parseInclude_le h arr kind ics fs n).bind fun x => parseFields_le h json arr outer rest x.1 x.2)
  | .field cs :: rest, fs, n => by
    simp only [parseFields]
    refine Res.Le.rfl.bind fun x => .ite (.ite .rfl ?_) ?_
    · exact (parseFieldValue_le h json _ _ cs n).bind fun y => Res.Le.rfl.bind fun z =>
        Res.Le.rfl.bind fun gs => parseFields_le h json arr outer rest gs z.2
    · exact (parseFieldValue_le h json _ _ cs n).bind fun y =>
        Res.Le.rfl.bind fun gs => parseFields_le h json arr outer rest gs y.2
  | .simple _ :: rest, fs, n => by
    simp only [parseFields]; exact parseFields_le h json arr outer rest fs n
  | .object _ :: rest, fs, n => by
    simp only [parseFields]; exact parseFields_le h json arr outer rest fs n
  | .array _ :: rest, fs, n => by
    simp only [parseFields]; exact parseFields_le h json arr outer rest fs n
  | .concat _ :: rest, fs, n => by
    simp only [parseFields]; exact parseFields_le h json arr outer rest fs n
  | .single _ :: rest, fs, n => by
    simp only [parseFields]; exact parseFields_le h json arr outer rest fs n
  | .comment _ :: rest, fs, n => by
    simp only [parseFields]; exact parseFields_le h json arr outer rest fs n
  | .path .. :: rest, fs, n => by
    simp only [parseFields]; exact parseFields_le h json arr outer rest fs n
end

theorem parseRoot_le {env : Env} {i j : Includer} (h : i.Le j) (json : Bool) (cs : List Node)
    (r : Option Value) (n : Nat) :
    (parseRoot env i json cs r n).Le (parseRoot env j json cs r n) := by
  induction cs generalizing r n with
  | nil => simp only [parseRoot]; exact .rfl
  | cons c cs ih =>
    rw [parseRoot.eq_def, parseRoot.eq_def env j]
    simp only
    refine .ite ((parseValue_le h json 0 none c n).bind fun x => ih _ _) ?_
    split
    · exact .rfl
    · exact ih _ _

theorem parseText_le {env : Env} {i j : Includer} (h : i.Le j) (fl : Syntax) (s : Str) (n : Nat) :
    (parseText env i fl s n).Le (parseText env j fl s n) :=
  Res.Le.rfl.bind fun _ => (parseRoot_le h _ _ _ _).bind fun _ => .rfl

end ConfigParser

namespace Files
open Value PathParser ConfigParser DocParser

theorem tryParse_le {α : Type} {x y : Res α} (h : x.Le y) : (tryParse x).Le (tryParse y) := by
  rcases h with rfl | rfl
  · exact .inl (.refl _)
  · exact .rfl

theorem mergeFound_le {s : SyntaxOpt} {am : Bool} {conf conf' json json' : Nat → Res (Value × Nat)}
    (hc : ∀ n, (conf n).Le (conf' n)) (hj : ∀ n, (json n).Le (json' n)) (n : Nat) :
    (mergeFound s am conf json n).Le (mergeFound s am conf' json' n) :=
  (Res.Le.ite (tryParse_le (hc n)) .rfl).bind fun _ =>
    (Res.Le.ite (tryParse_le ((hj _).bind fun _ => .rfl)) .rfl).bind fun _ => .rfl

theorem includeName_le {l l' : Loader} (h : ∀ f s n, (l f s n).Le (l' f s n)) (dir name : Str)
    (n : Nat) : (Files.includeName l dir name n).Le (Files.includeName l' dir name n) :=
  .ite (h _ _ _) (mergeFound_le (h _ _) (h _ _) n)

theorem includer_le {l l' : Loader} (h : ∀ f s n, (l f s n).Le (l' f s n)) (res : Value → Res Value)
    (dir : Str) : (includer l res dir).Le (includer l' res dir) where
  file name n := (includeName_le h dir name n).bind fun _ => .rfl
  heuristic name n := includeName_le h dir name n

theorem loadFile_le (env : Env) (fs : FS) (res : Value → Res Value) (fuel : Nat) (f : Str)
    (s : Syntax) (n : Nat) : (loadFile env fs res fuel f s n).Le (loadFile env fs res (fuel + 1) f s n) := by
  induction fuel generalizing f s n with
  | zero => exact .inl rfl
  | succ fuel ih =>
    exact (parseText_le (includer_le ih res _) s _ n).bind fun _ => .rfl

theorem loadFile_le_add (env : Env) (fs : FS) (res : Value → Res Value) (fuel d : Nat) (f : Str)
    (s : Syntax) (n : Nat) : (loadFile env fs res fuel f s n).Le (loadFile env fs res (fuel + d) f s n) := by
  induction d with
  | zero => exact .rfl
  | succ d ih =>
    rcases ih with h | h
    · exact .inl h
    · rw [h]; exact loadFile_le env fs res (fuel + d) f s n

end Files
end Hocon
