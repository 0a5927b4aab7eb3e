import Verif.Spec.HoconText
import Verif.Spec.Settle

/-!
# Specification: HOCON texts with substitutions and what they denote

`Spec/HoconText.lean` gives the values of texts without substitutions. Here the grammar also has
substitutions, `+=` and values that consist of several pieces (strings, substitutions, lists,
objects). A text denotes a piece of abstract syntax, `Syn`; `Means` says which tree of settings the
syntax stands for, before substitutions are resolved. Neither refers to the tokenizer or the parser.
-/

set_option autoImplicit false

namespace Hocon
namespace Spec

/-- Values as they are written. The members of an object are assignments `p = v` or, if the flag is
set, `p += v`. Blanks between two words or substitutions are a piece of their own, a string without
quotes. -/
inductive Syn where
  | scalar (s : Scalar)
  | ref (p : Path) (opt : Bool)
  | list (vs : List Syn)
  | obj (ms : List (Path × Bool × Syn))
  | concat (ps : List Syn)

/-- A word, a quoted string or a substitution. -/
def Syn.isSimple : Syn → Bool
  | .scalar _ => true
  | .ref .. => true
  | _ => false

/-- A substitution. -/
def Syn.isRef : Syn → Bool
  | .ref .. => true
  | _ => false

/-- Several pieces. -/
def Syn.isConcat : Syn → Bool
  | .concat _ => true
  | _ => false

/-! ## Texts -/

/-- Nonterminals with the syntax they denote. -/
inductive SPart where
  | value (s : Syn)
  | elems (vs : List Syn)
  | member (m : Path × Bool × Syn)
  | members (ms : List (Path × Bool × Syn))
  | pieces (ps : List Syn)

/-- A substitution: `${path}` or `${?path}`. -/
inductive HSubst (env : Env) : Path → Bool → Str → Prop
  | required {p : Path} {t : Str} : HSegs env p t → WordStart t → HSubst env p false (ch "${" ++ t ++ ch "}")
  | optional {p : Path} {t : Str} : HSegs env p t → WordStart t → HSubst env p true (ch "${?" ++ t ++ ch "}")

/-- `SText env N k t`: the text `t` derives from the nonterminal of `k` and denotes what `k` says. -/
inductive SText (env : Env) (N : Str → Scalar → Prop) : SPart → Str → Prop
  | atom {s : Scalar} {x t : Str} : HAtom env N s x t → SText env N (.value (.scalar s)) t
  | subst {p : Path} {opt : Bool} {t : Str} : HSubst env p opt t → SText env N (.value (.ref p opt)) t
  | concat {ps : List Syn} {t : Str} : SText env N (.pieces ps) t → 2 ≤ ps.length →
      SText env N (.value (.concat ps)) t
  | emptyArr {g : Str} : HGap g → SText env N (.value (.list [])) ('[' :: g ++ [']'])
  | arr {g t e : Str} {vs : List Syn} : HGap g → SText env N (.elems vs) t → HEnd e →
      SText env N (.value (.list vs)) ('[' :: g ++ t ++ e ++ [']'])
  | emptyObj {g : Str} : HGap g → SText env N (.value (.obj [])) ('{' :: g ++ ['}'])
  | obj {g t e : Str} {ms : List (Path × Bool × Syn)} : HGap g → SText env N (.members ms) t → HEnd e →
      SText env N (.value (.obj ms)) ('{' :: g ++ t ++ e ++ ['}'])
  | elem {t : Str} {v : Syn} : SText env N (.value v) t → SText env N (.elems [v]) t
  | elemCons {t s u : Str} {v : Syn} {vs : List Syn} : SText env N (.value v) t → HSep s →
      SText env N (.elems vs) u → SText env N (.elems (v :: vs)) (t ++ s ++ u)
  | field {kt g1 g2 t : Str} {c : Char} {p : Path} {v : Syn} : HKey env p kt → HGap g1 → (c = ':' ∨ c = '=') →
      HGap g2 → SText env N (.value v) t → SText env N (.member (p, false, v)) (kt ++ g1 ++ c :: g2 ++ t)
  | plus {kt g1 g2 t : Str} {p : Path} {v : Syn} : HKey env p kt → HGap g1 → HGap g2 →
      SText env N (.value v) t → SText env N (.member (p, true, v)) (kt ++ g1 ++ '+' :: '=' :: g2 ++ t)
  | sect {kt g t : Str} {p : Path} {ms : List (Path × Bool × Syn)} : HKey env p kt → HGap g →
      SText env N (.value (.obj ms)) ('{' :: t) → SText env N (.member (p, false, .obj ms)) (kt ++ g ++ '{' :: t)
  | last {t : Str} {m : Path × Bool × Syn} : SText env N (.member m) t → SText env N (.members [m]) t
  | memberCons {t s u : Str} {m : Path × Bool × Syn} {ms : List (Path × Bool × Syn)} : SText env N (.member m) t →
      HSep s → SText env N (.members ms) u → SText env N (.members (m :: ms)) (t ++ s ++ u)
  | piece {s : Syn} {t : Str} : SText env N (.value s) t → s.isConcat = false → SText env N (.pieces [s]) t
  /-- Two pieces without a blank in between: not two words. -/
  | touch {s s' : Syn} {ps : List Syn} {t u : Str} : SText env N (.value s) t → s.isConcat = false →
      SText env N (.pieces (s' :: ps)) u →
      (s.isSimple = false ∨ s'.isSimple = false ∨ s.isRef = true ∨ s'.isRef = true) →
      SText env N (.pieces (s :: s' :: ps)) (t ++ u)
  /-- Blanks before or after a list or an object have no meaning. -/
  | apart {s s' : Syn} {ps : List Syn} {t w u : Str} : SText env N (.value s) t → s.isConcat = false →
      w ≠ [] → (∀ c ∈ w, HBlank c) → SText env N (.pieces (s' :: ps)) u →
      (s.isSimple = false ∨ s'.isSimple = false) → SText env N (.pieces (s :: s' :: ps)) (t ++ w ++ u)
  /-- Blanks between words and substitutions are a piece. -/
  | blank {s s' : Syn} {ps : List Syn} {t w u : Str} : SText env N (.value s) t → s.isSimple = true →
      w ≠ [] → (∀ c ∈ w, HBlank c) → SText env N (.pieces (s' :: ps)) u → s'.isSimple = true →
      SText env N (.pieces (s :: .scalar (.str w false) :: s' :: ps)) (t ++ w ++ u)

/-- `SDoc env N s t`: the whole text `t` is a HOCON document that denotes `s`. -/
inductive SDoc (env : Env) (N : Str → Scalar → Prop) : Syn → Str → Prop
  | list {g t l : Str} {vs : List Syn} : HGap g → SText env N (.value (.list vs)) t → HLast l →
      SDoc env N (.list vs) (g ++ t ++ l)
  | obj {g t l : Str} {ms : List (Path × Bool × Syn)} : HGap g → SText env N (.value (.obj ms)) t → HLast l →
      SDoc env N (.obj ms) (g ++ t ++ l)
  | empty {l : Str} : HLast l → SDoc env N (.obj []) l
  | open_ {g t l : Str} {ms : List (Path × Bool × Syn)} : HGap g → SText env N (.members ms) t → HLast l →
      SDoc env N (.obj ms) (g ++ t ++ l)
  | openComma {g t g1 l : Str} {ms : List (Path × Bool × Syn)} : HGap g → SText env N (.members ms) t → HGap g1 →
      HLast l → SDoc env N (.obj ms) (g ++ t ++ g1 ++ ',' :: l)

/-! ## Repeated settings

A setting whose value cannot be known before substitutions are resolved is kept as the list of its
values, the newest first (`.dm`, or `.dmo` if the newest is an object). -/

/-- The values a setting has been given, the newest first. -/
def given : Value → List Value
  | .dm st => st
  | .dmo st => st
  | v => [v]

/-- Nothing older shows through: a scalar, a list without substitutions, a closed object. -/
inductive Hides : Value → Prop
  | scalar {s : Scalar} : Hides (.scalar s)
  | list {vs : List Value} : (Value.list vs).resolved = true → Hides (.list vs)
  | obj {fs : List (Str × Value)} {r : Bool} : Hides (.obj fs r true)

/-- What it stands for depends on substitutions: a substitution, a concatenation, a list with
substitutions. -/
inductive Open : Value → Prop
  | ref {id : Nat} {p : Path} {opt : Bool} {pre : Nat} : Open (.ref id p opt pre)
  | concat {ps : List Value} : Open (.concat ps)
  | list {vs : List Value} : (Value.list vs).resolved = false → Open (.list vs)

/-- Whether it is an object depends on substitutions. -/
def Unsure : Value → Prop
  | .ref .. => True
  | .concat _ => True
  | .dm _ => True
  | .dmo _ => True
  | _ => False

/-- Not a setting with several values. -/
def Sole : Value → Prop
  | .dm _ => False
  | .dmo _ => False
  | _ => True

/-- A scalar or a list. -/
def NotObj : Value → Prop
  | .scalar _ => True
  | .list _ => True
  | _ => False

mutual
/-- `Lay v old w`: a setting with the value `old` that is given the value `v` has the value `w`. -/
inductive Lay : Value → Value → Value → Prop
  | hide {v old : Value} : Hides v → Lay v old v
  | hideAll {st : List Value} {v old : Value} : Hides v → Lay (.dm (st ++ [v])) old (.dm (st ++ [v]))
  | hideAllO {st : List Value} {v old : Value} : Hides v → Lay (.dmo (st ++ [v])) old (.dmo (st ++ [v]))
  | wait {v old : Value} : Open v → Lay v old (.dm (v :: given old))
  | waitO {fs : List (Str × Value)} {r : Bool} {old : Value} : Unsure old → (∀ v ∈ given old, Sole v) →
      Lay (.obj fs r false) old (.dmo (.obj fs r false :: given old))
  /-- Two objects: field by field. -/
  | merge {fs gs hs es : List (Str × Value)} {r r' j : Bool} : LayF fs gs hs →
      es = gs.filter (fun g => !(fs.any fun f => f.1 == g.1)) →
      Lay (.obj fs r false) (.obj gs r' j) (.obj (hs ++ es) (Value.resolvedFields (hs ++ es)) j)
  | close {fs : List (Str × Value)} {old : Value} : NotObj old → Lay (.obj fs true false) old (.obj fs true true)
  /-- An object with substitutions over a scalar or list. -/
  | above {fs : List (Str × Value)} {old : Value} : NotObj old →
      Lay (.obj fs false false) old (.dmo [.obj fs false false, old])
/-- The fields `fs` over those of the same names in `gs`. -/
inductive LayF : List (Str × Value) → List (Str × Value) → List (Str × Value) → Prop
  | nil {gs : List (Str × Value)} : LayF [] gs []
  | new {k : Str} {v : Value} {fs gs hs : List (Str × Value)} : (∀ g ∈ gs, g.1 ≠ k) → LayF fs gs hs →
      LayF ((k, v) :: fs) gs ((k, v) :: hs)
  | old {k : Str} {v old w : Value} {fs gs1 gs2 hs : List (Str × Value)} : (∀ g ∈ gs1, g.1 ≠ k) → Lay v old w →
      LayF fs (gs1 ++ (k, old) :: gs2) hs → LayF ((k, v) :: fs) (gs1 ++ (k, old) :: gs2) ((k, w) :: hs)
end

/-- The value `v` under the keys `p`. -/
def nested : Path → Value → Value
  | [], v => v
  | k :: p, v => .obj [(k, nested p v)] v.resolved false

/-- `Assigns fs p v gs`: the fields `fs` become `gs` by the assignment of `v` to the path `p`. -/
inductive Assigns : List (Str × Value) → Path → Value → List (Str × Value) → Prop
  | new {fs : List (Str × Value)} {k : Str} {p : Path} {v : Value} : (∀ f ∈ fs, f.1 ≠ k) →
      Assigns fs (k :: p) v (fs ++ [(k, nested p v)])
  | old {fs gs : List (Str × Value)} {k : Str} {p : Path} {v old w : Value} : (∀ f ∈ fs, f.1 ≠ k) →
      Lay (nested p v) old w → Assigns (fs ++ (k, old) :: gs) (k :: p) v (fs ++ (k, w) :: gs)

/-! ## Values of several pieces -/

/-- A substitution. -/
def IsRef : Value → Prop
  | .ref .. => True
  | _ => False

/-- One piece: a scalar, a substitution, a list or an object. -/
def Piece : Value → Prop
  | .scalar _ => True
  | .ref .. => True
  | .list _ => True
  | .obj .. => True
  | _ => False

/-- Neighbours are put together, except substitutions. -/
inductive Joins (env : Env) : List Value → List Value → Prop
  | one {v : Value} : Piece v → Joins env [v] [v]
  /-- Two words make one text. -/
  | text {s s' : Scalar} {vs ws : List Value} : s.transformToString env ≠ [] → s'.transformToString env ≠ [] →
      Joins env (.scalar (.str (s.transformToString env ++ s'.transformToString env) true) :: vs) ws →
      Joins env (.scalar s :: .scalar s' :: vs) ws
  | lists {a b vs ws : List Value} : Joins env (.list (a ++ b) :: vs) ws → Joins env (.list a :: .list b :: vs) ws
  /-- Two objects: the second over the first. -/
  | objects {fs gs : List (Str × Value)} {r i r' i' : Bool} {w : Value} {vs ws : List Value} :
      Lay (.obj gs r' i') (.obj fs r i) w → Joins env (w :: vs) ws →
      Joins env (.obj fs r i :: .obj gs r' i' :: vs) ws
  | apart {a b : Value} {vs ws : List Value} : Piece a → Piece b → IsRef a ∨ IsRef b → Joins env (b :: vs) ws →
      Joins env (a :: b :: vs) (a :: ws)

/-! ## Meaning -/

mutual
/-- `Means env s n v m`: the syntax `s` stands for `v`, before substitutions are resolved. Every
substitution has a number of its own: `n` is the first number to be used, `m` the next one. -/
inductive Means (env : Env) : Syn → Nat → Value → Nat → Prop
  | scalar {s : Scalar} {n : Nat} : Means env (.scalar s) n (.scalar s) n
  | ref {p : Path} {opt : Bool} {n : Nat} : Means env (.ref p opt) n (.ref n p opt 0) (n + 1)
  | list {vs : List Syn} {ws : List Value} {n m : Nat} : MeansL env vs n ws m → Means env (.list vs) n (.list ws) m
  | obj {ms : List (Path × Bool × Syn)} {fs : List (Str × Value)} {n m : Nat} : MeansM env false ms [] n fs m →
      Means env (.obj ms) n (.obj fs (Value.resolvedFields fs) false) m
  /-- Pieces that are put together to one value. -/
  | whole {ps : List Syn} {vs : List Value} {v : Value} {n m : Nat} : 2 ≤ ps.length → MeansL env ps n vs m →
      Joins env vs [v] → Means env (.concat ps) n v m
  /-- Pieces with substitutions: put together when they are resolved. -/
  | pieces {ps : List Syn} {vs ws : List Value} {n m : Nat} : MeansL env ps n vs m → Joins env vs ws →
      2 ≤ ws.length → Means env (.concat ps) n (.concat ws) m
/-- Elements and pieces. -/
inductive MeansL (env : Env) : List Syn → Nat → List Value → Nat → Prop
  | nil {n : Nat} : MeansL env [] n [] n
  | cons {s : Syn} {v : Value} {ss : List Syn} {vs : List Value} {n m l : Nat} : Means env s n v m →
      MeansL env ss m vs l → MeansL env (s :: ss) n (v :: vs) l
/-- `MeansM env top ms fs n gs m`: the assignments `ms` turn the fields `fs` into `gs`. `p += v` stands
for `p = ${?p} [v]`; it has a meaning only at the top of the document (`top`). -/
inductive MeansM (env : Env) : Bool → List (Path × Bool × Syn) → List (Str × Value) → Nat → List (Str × Value) → Nat → Prop
  | nil {top : Bool} {fs : List (Str × Value)} {n : Nat} : MeansM env top [] fs n fs n
  | set {top : Bool} {p : Path} {s : Syn} {v : Value} {ms : List (Path × Bool × Syn)}
      {fs gs hs : List (Str × Value)} {n m l : Nat} : Means env s n v m → Assigns fs p v gs →
      MeansM env top ms gs m hs l → MeansM env top ((p, false, s) :: ms) fs n hs l
  | add {p : Path} {s : Syn} {v : Value} {ms : List (Path × Bool × Syn)}
      {fs gs hs : List (Str × Value)} {n m l : Nat} : Means env s n v m →
      Assigns fs p (.concat [.ref m p true 0, .list [v]]) gs →
      MeansM env true ms gs (m + 1) hs l → MeansM env true ((p, true, s) :: ms) fs n hs l
end

/-- `DocMeans env s n v m`: the document written as `s` stands for `v`. -/
inductive DocMeans (env : Env) : Syn → Nat → Value → Nat → Prop
  | obj {ms : List (Path × Bool × Syn)} {fs : List (Str × Value)} {n m : Nat} : MeansM env true ms [] n fs m →
      DocMeans env (.obj ms) n (.obj fs (Value.resolvedFields fs) false) m
  | list {vs : List Syn} {ws : List Value} {n m : Nat} : MeansL env vs n ws m →
      DocMeans env (.list vs) n (.list ws) m

end Spec
end Hocon
