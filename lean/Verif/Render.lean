import Verif.Value
import Verif.PathParser

/-!
# Rendering values

Model of the `render` functions of the value classes. Values of the model have no origins
(Verif/Value.lean), so the two comment options of `config_render_options` are taken to be off; what
is modelled is rendering with `set_comments(false)` and `set_origin_comments(false)`, as in
`config_render_options::concise()`.
-/

set_option autoImplicit false

namespace Hocon
namespace Render

/-- `config_render_options` without the comment options, config_render_options.cc 5-11. -/
structure Options where
  /-- `get_formatted` -/
  formatted : Bool
  /-- `get_json` -/
  json : Bool
  deriving DecidableEq, Repr

/-- `config_render_options::concise`, config_render_options.cc 8-10. -/
def concise : Options := ⟨false, true⟩

/-- `config_value::indent`, config_value.cc 85-89: what is appended. -/
def indent (o : Options) (n : Nat) : Str := if o.formatted then List.replicate (n * 4) ' ' else []

/-- `operator<` of `std::string`: lexicographic by character code. -/
def strLt : Str → Str → Bool
  | [], [] => false
  | [], _ :: _ => true
  | _ :: _, [] => false
  | a :: as, b :: bs => if a.toNat < b.toNat then true else if b.toNat < a.toNat then false else strLt as bs

/-- `compare`, simple_config_object.cc 415-428. (`isdigit` of a negative `char` is undefined; the
model takes it to be false.) -/
def compare (a b : Str) : Bool :=
  if a.all isDigit && b.all isDigit then !strLt a b
  else if a.all isDigit then true
  else if b.all isDigit then false
  else strLt a b

/-- Insert an entry before the first one that `compare` puts after it. -/
def insert (e : Str × Str) : List (Str × Str) → List (Str × Str)
  | [] => [e]
  | x :: xs => if compare e.1 x.1 then e :: x :: xs else x :: insert e xs

/-- `sort(keys.begin(), keys.end(), compare)`, simple_config_object.cc 450, on keys paired with the
rendered entries. `compare` is a strict order on distinct keys, so any sorting algorithm gives this
result; that `compare(a, a)` can be true makes the call formally undefined, which is not modelled. -/
def sort : List (Str × Str) → List (Str × Str)
  | [] => []
  | e :: es => insert e (sort es)

/-- `s.substr(0, s.size() - n)` on the part of the text appended since. -/
def chop (n : Nat) (s : Str) : Str := s.take (s.length - n)

/-- `dynamic_cast<config_object const*>`. -/
def isObject : Value → Bool
  | .obj .. => true
  | .dmo _ => true
  | _ => false

/-- The key and separator that precede a value, config_value.cc 55-76. -/
def keyPrefix (o : Options) (key : Str) (v : Value) : Str :=
  if key.isEmpty then []
  else if o.json then renderJsonString key ++ (if o.formatted then ch " : " else ch ":")
  else renderStringUnquotedIfPossible key ++
    (if isObject v then (if o.formatted then ch " " else []) else ch "=")

/-- The text of a scalar: config_string.cc 34-44, config_null.cc 31-33, config_value.cc 80-83. -/
def scalar (env : Env) (o : Options) : Scalar → Str
  | .str s _ => if o.json then renderJsonString s else renderStringUnquotedIfPossible s
  | x => x.transformToString env

/-- The text after the last element is chopped, simple_config_list.cc 157-163. `body` is everything
the loop appended. -/
def closeList (o : Options) (ind : Nat) (body : Str) : Str :=
  chop 1 body |> fun b => (if o.formatted then chop 1 b ++ '\n' :: indent o ind else b) ++ [']']

/-- The loop over the sorted entries, simple_config_object.cc 451-497. -/
def entriesText (o : Options) (ind : Nat) : List (Str × Str) → Str
  | [] => []
  | (_, t) :: es =>
    indent o ind ++ t ++ (if o.formatted then (if o.json then ch ",\n" else ch "\n") else ch ",")
      ++ entriesText o ind es

/-- `seperator_count`, simple_config_object.cc 485-496. -/
def separatorCount (o : Options) : Nat := if o.formatted && o.json then 2 else 1

/-- simple_config_object.cc 430-514 for a nonempty object with the given (unsorted) rendered entries. -/
def objectText (o : Options) (ind : Nat) (atRoot : Bool) (entries : List (Str × Str)) : Str :=
  let braces := o.json || !atRoot
  let inner := if braces then ind + 1 else ind
  (if braces then '{' :: (if o.formatted then ch "\n" else []) else [])
    ++ chop (separatorCount o) (entriesText o inner (sort entries))
    ++ (if braces then (if o.formatted then '\n' :: indent o ind else []) ++ ['}'] else [])

/-- The end of rendering an object, simple_config_object.cc 511-513. -/
def rootNewline (o : Options) (atRoot : Bool) : Str := if atRoot && o.formatted then ch "\n" else []

/-- The end of rendering a stack, config_delayed_merge.cc 212-217. -/
def closeStack (o : Options) (body : Str) : Str :=
  chop 1 body |> fun b => if o.formatted then chop 1 b ++ ch "\n" else b

/-- The part of an entry before the value in a stack, config_delayed_merge.cc 198-205. -/
def stackKey (o : Options) (key : Str) : Str :=
  if key.isEmpty then [] else renderJsonString key ++ (if o.formatted then ch " : " else ch ":")

/-- `substitution_expression::to_string`, substitution_expression.cc 26-28. -/
def refText (p : Path) (opt : Bool) : Str :=
  ch "${" ++ (if opt then ch "?" else []) ++ PathParser.renderPath p ++ ch "}"

mutual
/-- `render(string& s, int indent, bool at_root, config_render_options options)`: the text appended.
simple_config_object.cc 430-514, simple_config_list.cc 114-165, config_reference.cc 82-84,
config_concatenation.cc 195-199, config_delayed_merge.cc 154-156, config_delayed_merge_object.cc
187-189. -/
def render (env : Env) (o : Options) : Value → Nat → Bool → Str
  | .scalar s, _, _ => scalar env o s
  | .list [], _, _ => ch "[]"
  | .list (v :: vs), ind, root =>
    '[' :: (if o.formatted then ch "\n" else []) ++ closeList o ind (renderElems env o (v :: vs) ind root)
  | .obj [] _ _, _, root => ch "{}" ++ rootNewline o root
  | .obj (f :: fs) _ _, ind, root =>
    objectText o ind root (renderFields env o (f :: fs) (if o.json || !root then ind + 1 else ind))
      ++ rootNewline o root
  | .ref _ p opt _, _, _ => refText p opt
  | .concat ps, ind, root => renderPieces env o ps ind root
  | .dm st, ind, root => closeStack o (renderStack env o st ind root [])
  | .dmo st, ind, root => closeStack o (renderStack env o st ind root [])
/-- The loop of simple_config_list.cc 126-156. -/
def renderElems (env : Env) (o : Options) : List Value → Nat → Bool → Str
  | [], _, _ => []
  | v :: vs, ind, root =>
    indent o (ind + 1) ++ render env o v (ind + 1) root ++ ',' :: (if o.formatted then ch "\n" else [])
      ++ renderElems env o vs ind root
/-- `v->render(s, inner_indent, false, k, options)` for all fields, simple_config_object.cc 483, with
the virtual overrides config_value.cc 54-78, config_delayed_merge.cc 150-152 and
config_delayed_merge_object.cc 183-185. -/
def renderFields (env : Env) (o : Options) : Fields → Nat → List (Str × Str)
  | [], _ => []
  | (k, .dm st) :: fs, ind => (k, closeStack o (renderStack env o st ind false k)) :: renderFields env o fs ind
  | (k, .dmo st) :: fs, ind => (k, closeStack o (renderStack env o st ind false k)) :: renderFields env o fs ind
  | (k, v) :: fs, ind => (k, keyPrefix o k v ++ render env o v ind false) :: renderFields env o fs ind
/-- config_concatenation.cc 195-199. -/
def renderPieces (env : Env) (o : Options) : List Value → Nat → Bool → Str
  | [], _, _ => []
  | v :: vs, ind, root => render env o v ind root ++ renderPieces env o vs ind root
/-- The loop of config_delayed_merge.cc 172-211; the stack is iterated from its end. -/
def renderStack (env : Env) (o : Options) : List Value → Nat → Bool → Str → Str
  | [], _, _, _ => []
  | v :: vs, ind, root, key =>
    renderStack env o vs ind root key ++
      (indent o ind ++ stackKey o key ++ render env o v ind root ++ ',' :: (if o.formatted then ch "\n" else []))
end

/-- `config_value::render(options)`, config_value.cc 39-43. -/
def renderValue (env : Env) (o : Options) (v : Value) : Str := render env o v 0 true

end Render
end Hocon
