import Verif.Render
import Verif.Origin

/-!
# Rendering with comments and origins

Model of the `render` functions of the value classes with all four options of `config_render_options`.
`Verif/Render.lean` leaves comments and origins out; here every value carries its origin.
-/

set_option autoImplicit false

namespace Hocon
namespace Notes

open Render (indent chop isObject)

/-- `config_value` with its `_origin` (config_value.hpp 329): the classes are those of
`Verif/Value.lean`. -/
inductive AVal where
  /-- `config_null`, `config_boolean`, `config_string`, `config_number` -/
  | scalar (o : Origin) (s : Scalar)
  /-- `simple_config_list` -/
  | list (o : Origin) (vs : List AVal)
  /-- `simple_config_object` -/
  | obj (o : Origin) (fs : List (Str × AVal)) (resolved ignores : Bool)
  /-- `config_reference` -/
  | ref (o : Origin) (id : Nat) (p : Path) (opt : Bool) (pre : Nat)
  /-- `config_concatenation` -/
  | concat (o : Origin) (ps : List AVal)
  /-- `config_delayed_merge` -/
  | dm (o : Origin) (st : List AVal)
  /-- `config_delayed_merge_object` -/
  | dmo (o : Origin) (st : List AVal)

/-- `config_value::origin`, config_value.cc 26-28. -/
def AVal.origin : AVal → Origin
  | .scalar o _ => o
  | .list o _ => o
  | .obj o _ _ _ => o
  | .ref o _ _ _ _ => o
  | .concat o _ => o
  | .dm o _ => o
  | .dmo o _ => o

mutual
/-- The value without origins, as modelled in `Verif/Value.lean`. -/
def AVal.erase : AVal → Value
  | .scalar _ s => .scalar s
  | .list _ vs => .list (eraseL vs)
  | .obj _ fs r i => .obj (eraseF fs) r i
  | .ref _ id p opt pre => .ref id p opt pre
  | .concat _ ps => .concat (eraseL ps)
  | .dm _ st => .dm (eraseL st)
  | .dmo _ st => .dmo (eraseL st)
/-- `erase` for all elements. -/
def eraseL : List AVal → List Value
  | [] => []
  | v :: vs => v.erase :: eraseL vs
/-- `erase` for all fields. -/
def eraseF : List (Str × AVal) → List (Str × Value)
  | [] => []
  | (k, v) :: fs => (k, v.erase) :: eraseF fs
end

/-- `config_render_options`, config_render_options.hpp; the defaults of the constructor are all `true`
(lines 17-18). -/
structure Options where
  /-- `get_origin_comments` -/
  origins : Bool := true
  /-- `get_comments` -/
  comments : Bool := true
  /-- `get_formatted` -/
  formatted : Bool := true
  /-- `get_json` -/
  json : Bool := true
  deriving DecidableEq, Repr

/-- The options that `Verif/Render.lean` knows. -/
def Options.base (o : Options) : Render.Options := ⟨o.formatted, o.json⟩

/-- `boost::split(lines, s, boost::is_any_of("\n"))`: the pieces between newlines, at least one. -/
def splitLines : Str → List Str
  | [] => [[]]
  | c :: s =>
    if c = '\n' then [] :: splitLines s
    else match splitLines s with
      | l :: ls => (c :: l) :: ls
      | [] => [[c]]

/-- The lines for the description of an origin, simple_config_object.cc 455-469 and
simple_config_list.cc 127-140. -/
def originLines (o : Options) (ind : Nat) : List Str → Str
  | [] => []
  | l :: ls => indent o.base ind ++ '#' :: (if l.isEmpty then [] else ch " ") ++ l ++ '\n' :: originLines o ind ls

/-- The lines for the comments of a field, simple_config_object.cc 471-480: a blank is put before a
comment that does not begin with one. -/
def fieldCommentLines (o : Options) (ind : Nat) : List Str → Str
  | [] => []
  | c :: cs =>
    indent o.base ind ++ '#' :: (if (ch " ").isPrefixOf c then [] else ch " ") ++ c
      ++ '\n' :: fieldCommentLines o ind cs

/-- The lines for the comments of an element, simple_config_list.cc 141-148: a blank is always put. -/
def elemCommentLines (o : Options) (ind : Nat) : List Str → Str
  | [] => []
  | c :: cs => indent o.base ind ++ '#' :: ' ' :: c ++ '\n' :: elemCommentLines o ind cs

/-- What precedes a field, simple_config_object.cc 454-480; the lines of the origin are indented by the
indentation of the object plus one (461), the others like the field. -/
def fieldNotes (o : Options) (ind inner : Nat) (v : AVal) : Str :=
  (if o.origins then originLines o (ind + 1) (splitLines v.origin.desc) else [])
    ++ (if o.comments then fieldCommentLines o inner v.origin.comments else [])

/-- What precedes an element, simple_config_list.cc 127-148. -/
def elemNotes (o : Options) (ind : Nat) (v : AVal) : Str :=
  (if o.origins then originLines o (ind + 1) (splitLines v.origin.desc) else [])
    ++ (if o.comments then elemCommentLines o (ind + 1) v.origin.comments else [])

/-- The loop over the sorted entries, simple_config_object.cc 451-497; an entry is its key, the notes
before it and its text. -/
def entriesText (o : Options) : List (Str × Str) → Str
  | [] => []
  | (_, t) :: es =>
    t ++ (if o.formatted then (if o.json then ch ",\n" else ch "\n") else ch ",") ++ entriesText o es

/-- simple_config_object.cc 433-510 for a nonempty object with the given (unsorted) rendered entries. -/
def objectText (o : Options) (ind : Nat) (atRoot : Bool) (entries : List (Str × Str)) : Str :=
  let braces := o.json || !atRoot
  (if braces then '{' :: (if o.formatted then ch "\n" else []) else [])
    ++ chop (Render.separatorCount o.base) (entriesText o (Render.sort entries))
    ++ (if braces then (if o.formatted then '\n' :: indent o.base ind else []) ++ ['}'] else [])

/-- The beginning of an unresolved merge, config_delayed_merge.cc 162-169. -/
def mergeHead (o : Options) (ind : Nat) (key : Str) (count : Nat) : Str :=
  if o.comments then
    ch "# unresolved merge of " ++ (toString count).toList ++ ch " values follows (\n" ++
    (if key.isEmpty then
      indent o.base ind ++
        ch "# this unresolved merge will not be parseable because it's at the root of the object =\n" ++
      (indent o.base ind ++
        ch "# the HOCON format has no way to list multiple root objects in a single file \n")
    else [])
  else []

/-- The end of an unresolved merge, config_delayed_merge.cc 212-221. -/
def mergeTail (o : Options) (ind : Nat) (body : Str) : Str :=
  Render.closeStack o.base body ++
    (if o.comments then indent o.base ind ++ ch "# ) end of unresolved merge\n" else [])

/-- The comments of one value of an unresolved merge, config_delayed_merge.cc 188-193. -/
def mergeComments (o : Options) (ind : Nat) : List Str → Str
  | [] => []
  | c :: cs => indent o.base ind ++ ch "# " ++ c ++ '\n' :: mergeComments o ind cs

/-- What precedes value number `i` of an unresolved merge, config_delayed_merge.cc 177-194. -/
def mergeNotes (o : Options) (ind : Nat) (key : Str) (i : Nat) (v : AVal) : Str :=
  if o.comments then
    indent o.base ind ++ ch "#     unmerged value " ++ (toString i).toList ++
      (if key.isEmpty then ch " for key " ++ renderJsonString key ++ ch " from " else ch " from ") ++
      v.origin.desc ++ '\n' :: mergeComments o ind v.origin.comments
  else []

mutual
/-- `render(string& s, int indent, bool at_root, config_render_options options)`: the text appended.
simple_config_object.cc 430-514, simple_config_list.cc 114-165, config_reference.cc 82-84,
config_concatenation.cc 195-199, config_delayed_merge.cc 154-156, config_delayed_merge_object.cc
187-189. -/
def render (env : Env) (o : Options) : AVal → Nat → Bool → Str
  | .scalar _ s, _, _ => Render.scalar env o.base s
  | .list _ [], _, _ => ch "[]"
  | .list _ (v :: vs), ind, root =>
    '[' :: (if o.formatted then ch "\n" else [])
      ++ Render.closeList o.base ind (renderElems env o (v :: vs) ind root)
  | .obj _ [] _ _, _, root => ch "{}" ++ Render.rootNewline o.base root
  | .obj _ (f :: fs) _ _, ind, root =>
    objectText o ind root (renderFields env o (f :: fs) ind (if o.json || !root then ind + 1 else ind))
      ++ Render.rootNewline o.base root
  | .ref _ _ p opt _, _, _ => Render.refText p opt
  | .concat _ ps, ind, root => renderPieces env o ps ind root
  | .dm _ st, ind, root =>
    mergeHead o ind [] st.length ++ mergeTail o ind (renderStack env o st ind root [])
  | .dmo _ st, ind, root =>
    mergeHead o ind [] st.length ++ mergeTail o ind (renderStack env o st ind root [])
/-- The loop of simple_config_list.cc 126-156. -/
def renderElems (env : Env) (o : Options) : List AVal → Nat → Bool → Str
  | [], _, _ => []
  | v :: vs, ind, root =>
    elemNotes o ind v ++ (indent o.base (ind + 1) ++ render env o v (ind + 1) root
      ++ ',' :: (if o.formatted then ch "\n" else [])) ++ renderElems env o vs ind root
/-- The entries of an object with the notes before them, simple_config_object.cc 454-483, with the
virtual overrides of `render` with a key, config_value.cc 54-78, config_delayed_merge.cc 150-152 and
config_delayed_merge_object.cc 183-185. `ind` is the indentation of the object, `inner` that of the
fields. -/
def renderFields (env : Env) (o : Options) : List (Str × AVal) → Nat → Nat → List (Str × Str)
  | [], _, _ => []
  | (k, .dm og st) :: fs, ind, inner =>
    (k, fieldNotes o ind inner (.dm og st) ++ indent o.base inner ++
      (mergeHead o inner k st.length ++ mergeTail o inner (renderStack env o st inner false k)))
      :: renderFields env o fs ind inner
  | (k, .dmo og st) :: fs, ind, inner =>
    (k, fieldNotes o ind inner (.dmo og st) ++ indent o.base inner ++
      (mergeHead o inner k st.length ++ mergeTail o inner (renderStack env o st inner false k)))
      :: renderFields env o fs ind inner
  | (k, v) :: fs, ind, inner =>
    (k, fieldNotes o ind inner v ++ indent o.base inner ++
      (Render.keyPrefix o.base k v.erase ++ render env o v inner false)) :: renderFields env o fs ind inner
/-- config_concatenation.cc 195-199. -/
def renderPieces (env : Env) (o : Options) : List AVal → Nat → Bool → Str
  | [], _, _ => []
  | v :: vs, ind, root => render env o v ind root ++ renderPieces env o vs ind root
/-- The loop of config_delayed_merge.cc 172-211; the stack is iterated from its end, so the number of a
value is the number of values behind it. -/
def renderStack (env : Env) (o : Options) : List AVal → Nat → Bool → Str → Str
  | [], _, _, _ => []
  | v :: vs, ind, root, key =>
    renderStack env o vs ind root key ++ mergeNotes o ind key vs.length v ++
      (indent o.base ind ++ Render.stackKey o.base key ++ render env o v ind root
        ++ ',' :: (if o.formatted then ch "\n" else []))
end

/-- `config_value::render(options)`, config_value.cc 39-43. -/
def renderValue (env : Env) (o : Options) (v : AVal) : Str := render env o v 0 true

end Notes
end Hocon
