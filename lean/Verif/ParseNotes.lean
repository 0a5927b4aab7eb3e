import Verif.RenderNotes
import Verif.ConfigParser

/-!
# From the syntax tree to values with origins and comments

Model of `lib/src/config_parser.cc` as in `Verif/ConfigParser.lean`, but every value carries its origin:
line numbers, descriptions and comments, and what merging and concatenation do to them. That both
models build the same values is proved in `Verif/Lemmas/NotesErase.lean`.
-/

set_option autoImplicit false

namespace Hocon
namespace Notes

open Value (isObject)

/-- Object fields. -/
abbrev AFields := List (Str × AVal)

/-- `config_value::with_origin`, config_value.cc 116-122, with the `new_copy` functions of the value
classes, which copy everything else. A reference gets a new address, but the old object is
dropped, so the number can stay. -/
def AVal.withOrigin (o : Origin) : AVal → AVal
  | .scalar _ s => .scalar o s
  | .list _ vs => .list o vs
  | .obj _ fs r i => .obj o fs r i
  | .ref _ id p opt pre => .ref o id p opt pre
  | .concat _ ps => .concat o ps
  | .dm _ st => .dm o st
  | .dmo _ st => .dmo o st

/-- `unordered_map::find`. -/
def findKeyA (fs : AFields) (k : Str) : Option AVal :=
  match fs with
  | [] => none
  | (k', v) :: r => if k' = k then some v else findKeyA r k

/-- The origin of a pointer that is not null. -/
def notNull : Option Origin → Res Origin
  | some o => .ok o
  | none => .ub

/-- `simple_config_origin::merge_origins` on the origins of values, simple_config_origin.cc 84-123. -/
def mergeAll (os : List Origin) : Res Origin := (Origin.mergeOrigins (os.map some)).bind notNull

/-- `cv && cv->get_resolve_status() == RESOLVED && cv->is_empty()`, config_object.cc 78-79. -/
def isBare : AVal → Bool
  | .obj _ [] true _ => true
  | _ => false

/-- `config_object::merge_origins`, config_object.cc 65-94. -/
def mergeStack (st : List AVal) : Res Origin :=
  match st with
  | [] => .err .config
  | v :: _ =>
    match st.filter (fun w => !isBare w) with
    | [] => mergeAll [v.origin]
    | ws => mergeAll (ws.map AVal.origin)

/-- `unmerged_values`, as in `Value.unmergedValues`. -/
def unmergedA : AVal → List AVal
  | .dm _ st => st
  | .dmo _ st => st
  | v => [v]

/-- `construct_delayed_merge` with the constructors, as in `Value.constructDelayedMerge`: config_value.cc
215-217, config_object.cc 54-56, config_delayed_merge.cc 18-30, config_delayed_merge_object.cc 15-30. -/
def delayedA (v : AVal) (o : Origin) (st : List AVal) : Res AVal :=
  if v.erase.isObject then
    match st with
    | [] => .err .config
    | w :: _ =>
      if w.erase.isObject then
        if st.any (fun x => x.erase.isDelayed) then .err .config else .ok (.dmo o st)
      else .err .config
  else if st.isEmpty then .err .config else .ok (.dm o st)

/-- `merge_origins` and `construct_delayed_merge`, config_value.cc 226-229 and 283-286; the result is a
new object. -/
def delayA (v : AVal) (st : List AVal) : Res (AVal × Bool) := do
  let o ← mergeStack st
  let d ← delayedA v o st
  .ok (d, true)

/-- `with_fallbacks_ignored`: config_value.cc 207-213, simple_config_object.cc 345-351. -/
def ignoringA (v : AVal) : Res (AVal × Bool) :=
  match v with
  | .obj o fs r i => .ok (.obj o fs r true, !i)
  | v => if v.erase.ignoresFallbacks then .ok (v, false) else .err .config

/-- `merged_with_non_object`, config_value.cc 248-272. -/
def nonObjectA (v fb : AVal) : Res (AVal × Bool) :=
  if v.erase.resolved then ignoringA v else delayA v [v, fb]

/-- The fields of the fallback whose key is not among ours. -/
def extraA (fs gs : AFields) : AFields := gs.filter fun g => !((fs.map Prod.fst).contains g.1)

/-- The origin and the fields of the merged object, simple_config_object.cc 407-415: unless something
has changed the object keeps its origin, and is returned itself if its status stays too. -/
def mergedObjA (o : Origin) (fs : AFields) (r i : Bool) (fb : AVal) (j : Bool) (m : AFields) (changed : Bool) :
    Res (AVal × Bool) :=
  let res := m.all fun f => f.2.erase.resolved
  if changed then do
    let o' ← mergeStack [.obj o fs r i, fb]
    .ok (.obj o' m res j, true)
  else if res ≠ r ∨ j ≠ i then .ok (.obj o fs res j, true)
  else .ok (.obj o fs r i, false)

mutual
/-- `config_value::with_fallback`, config_value.cc 181-195, and `merged_with_object`,
simple_config_object.cc 353-416, as in `Value.withFallback`. The flag says whether the result is
another object than `a` (the code compares pointers, simple_config_object.cc 396). -/
def fallbackA (a b : AVal) : Res (AVal × Bool) :=
  match a with
  | .scalar o s => .ok (.scalar o s, false)
  | .list o vs =>
    if (AVal.list o vs).erase.ignoresFallbacks then .ok (.list o vs, false)
    else if b.erase.isUnmergeable then delayA (.list o vs) (.list o vs :: unmergedA b)
    else nonObjectA (.list o vs) b
  | .obj o fs r i =>
    if i then .ok (.obj o fs r i, false)
    else if b.erase.isUnmergeable then delayA (.obj o fs r i) (.obj o fs r i :: unmergedA b)
    else
      match b with
      | .obj o' gs r' j => do
        let (m, changed) ← mergeFieldsA fs gs
        mergedObjA o fs r i (.obj o' gs r' j) j (m ++ extraA fs gs) (changed || !(extraA fs gs).isEmpty)
      | b => nonObjectA (.obj o fs r i) b
  | .ref o n p opt k =>
    if b.erase.isUnmergeable then delayA (.ref o n p opt k) (.ref o n p opt k :: unmergedA b)
    else nonObjectA (.ref o n p opt k) b
  | .concat o ps =>
    if b.erase.isUnmergeable then delayA (.concat o ps) (.concat o ps :: unmergedA b)
    else nonObjectA (.concat o ps) b
  | .dm o st =>
    if (AVal.dm o st).erase.ignoresFallbacks then .ok (.dm o st, false)
    else if b.erase.isUnmergeable then delayA (.dm o st) (.dm o st :: unmergedA b)
    else nonObjectA (.dm o st) b
  | .dmo o st =>
    if (AVal.dmo o st).erase.ignoresFallbacks then .ok (.dmo o st, false)
    else if b.erase.isUnmergeable then delayA (.dmo o st) (.dmo o st :: unmergedA b)
    else if b.erase.isObject then .err .config
    else nonObjectA (.dmo o st) b
/-- The loop over the keys, simple_config_object.cc 374-405, restricted to our own keys; the flag is
`changed`. -/
def mergeFieldsA : AFields → AFields → Res (AFields × Bool)
  | [], _ => .ok ([], false)
  | (k, v) :: fs, gs => do
    let (kept, c) ← (match findKeyA gs k with
      | none => Res.ok (v, false)
      | some w => fallbackA v w)
    let (rest, c') ← mergeFieldsA fs gs
    .ok ((k, kept) :: rest, c || c')
end

/-- `join`, config_concatenation.cc 213-259, as in `Value.join`, with the origins of
simple_config_list.cc 83 and config_concatenation.cc 247. -/
def joinA (env : Env) (left right : AVal) : Res (Option AVal) :=
  if left.erase.isObject && right.erase.isList then .err .config
  else if left.erase.isList && right.erase.isObject then .err .config
  else if left.erase.isObject && right.erase.isObject then do
    let (j, _) ← fallbackA right left
    .ok (some j)
  else
    match left, right with
    | .list o a, .list o' b => .ok (some (.list (Origin.mergeTwo o o') (a ++ b)))
    | _, _ =>
      if (left.erase.isList || left.erase.isObject) && Value.isIgnoredWhitespace right.erase then .ok (some left)
      else if left.erase.isConcat || right.erase.isConcat then .err .config
      else if left.erase.isUnmergeable || right.erase.isUnmergeable then .ok none
      else if (left.erase.toText env).isEmpty || (right.erase.toText env).isEmpty then .err .config
      else .ok (some (.scalar (Origin.mergeTwo left.origin right.origin)
        (.str (left.erase.toText env ++ right.erase.toText env) true)))

/-- The second loop of `consolidate`, config_concatenation.cc 129-135. -/
def joinLoopA (env : Env) : List AVal → AVal → List AVal → Res (List AVal)
  | done, last, [] => .ok (done ++ [last])
  | done, last, v :: vs => do
    match ← joinA env last v with
    | some j => joinLoopA env done j vs
    | none => joinLoopA env (done ++ [last]) v vs

/-- The first loop of `consolidate`, config_concatenation.cc 118-124. -/
def flattenA : List AVal → List AVal
  | [] => []
  | .concat _ ps :: vs => ps ++ flattenA vs
  | v :: vs => v :: flattenA vs

/-- `consolidate`, config_concatenation.cc 112-139. -/
def consolidateA (env : Env) (ps : List AVal) : Res (List AVal) :=
  if ps.length < 2 then .ok ps
  else
    match flattenA ps with
    | [] => .ok []
    | v :: vs => joinLoopA env [] v vs

/-- `concatenate` and the constructor, config_concatenation.cc 141-151, 22-42; `none` = null pointer. -/
def concatenateA (env : Env) (ps : List AVal) : Res (Option AVal) := do
  let c ← consolidateA env ps
  match c with
  | [] => .ok none
  | [v] => .ok (some v)
  | vs => do
    let o ← mergeAll (vs.map AVal.origin)
    if vs.length < 2 then .err .config
    else if vs.any (fun v => v.erase.isConcat) then .err .config
    else if vs.any (fun v => v.erase.isUnmergeable) then .ok (some (.concat o vs))
    else .err .config

/-! ## The parser -/

/-- The includer, as in `ConfigParser.Includer`. -/
structure AIncluder where
  file : Str → Nat → Res (AVal × Nat)
  heuristic : Str → Nat → Res (AVal × Nat)

/-- `config_node_simple_value::get_value`, config_node_simple_value.cc 28-48. The origin of a token is the
origin of the document with the token's line number (tokenizer.cc 86, 337, 446). -/
def getValueA (env : Env) (base : Origin) (t : Tok) (n : Nat) : Res (AVal × Nat) :=
  match t with
  | .value v _ l => .ok (.scalar (base.withLineNumber l) v, n)
  | .unquoted s l => .ok (.scalar (base.withLineNumber l) (.str s false), n)
  | .subst opt expr l => do
    let p ← PathParser.parsePathExpression env true expr
    .ok (.ref (base.withLineNumber l) n p opt 0, n + 1)
  | _ => .err .config

/-- `config_node_comment::comment_text`, config_node_comment.cc 12-14. The token of such a node is a
comment (config_document_parser.cc 69-71, 103-105). -/
def commentText : Tok → Str
  | .comment _ text _ => text
  | _ => []

/-- The end of `parse_value`, config_parser.cc 76-82. -/
def prepend (cs : List Str) (v : AVal) : AVal :=
  if cs.isEmpty then v else v.withOrigin (v.origin.prependComments cs)

/-- `v->with_origin(as_origin(v->origin())->append_comments(cs))`, config_parser.cc 240, 327, 336, 345,
386. -/
def append (cs : List Str) (v : AVal) : AVal := v.withOrigin (v.origin.appendComments cs)

/-- `create_value_under_path`, config_parser.cc 90-119. The origin of the new objects is
`value->origin()->with_comments({})`, which keeps the comments. -/
def underPathA : Path → AVal → Res AVal
  | [], _ => .ub
  | [k], v => .ok (.obj (v.origin.withComments []) [(k, v)] v.erase.resolved false)
  | k :: p, v => do
    let o ← underPathA p v
    .ok (.obj (v.origin.withComments []) [(k, o)] o.erase.resolved false)

/-- Storing a new value for a key, config_parser.cc 155-161 and 264-278. -/
def putMergedA (fs : AFields) (k : Str) (v : AVal) : Res AFields :=
  match findKeyA fs k with
  | none => .ok (putKey k v fs)
  | some old => do
    let (m, _) ← fallbackA v old
    .ok (putKey k m fs)

/-- Storing the value of a field, config_parser.cc 260-291. -/
def putFieldA (json : Bool) (fs : AFields) (p : Path) (v : AVal) : Res AFields :=
  match p with
  | [] => .ub
  | [k] =>
    if json && (findKeyA fs k).isSome then .err .parse else putMergedA fs k v
  | k :: p =>
    if json then .err .foreign
    else do
      let o ← underPathA p v
      putMergedA fs k o

/-- The loop over the fields of the included object, config_parser.cc 152-162. -/
def putAllA : AFields → AFields → Res AFields
  | fs, [] => .ok fs
  | fs, (k, v) :: gs => do
    let fs ← putMergedA fs k v
    putAllA fs gs

/-- The call of the includer, config_parser.cc 124-138. -/
def callIncluderA (env : Env) (inc : AIncluder) (kind : IncludeKind) (cs : List Node) (n : Nat) :
    Res (AVal × Nat) :=
  match kind with
  | .file => do
    let (name, n) ← ConfigParser.includeName env cs n
    inc.file name n
  | .heuristic => do
    let (name, n) ← ConfigParser.includeName env cs n
    inc.heuristic name n
  | .classpath => .err .config
  | .url => .err .config

/-- Merging the included object, config_parser.cc 143-162, as in `ConfigParser.putIncluded`. -/
def putIncludedA (arr : Nat) (fs : AFields) (o : AVal) : Res AFields :=
  if arr > 0 && o.erase.isObject && !o.erase.resolved then .err .config
  else
    match o with
    | .obj _ gs _ _ => putAllA fs gs
    | .dmo _ _ => .err .config
    | _ => .ub

/-- `parse_include`, config_parser.cc 121-163. -/
def parseIncludeA (env : Env) (inc : AIncluder) (arr : Nat) (kind : IncludeKind) (cs : List Node)
    (fs : AFields) (n : Nat) : Res (AFields × Nat) := do
  let (o, n) ← callIncluderA env inc kind cs n
  let fs ← putIncludedA arr fs o
  .ok (fs, n)

/-- A null result of `concatenate` is dereferenced later. -/
def nonNullA : Option AVal → Res AVal
  | some v => .ok v
  | none => .ub

/-- The value of a `+=` field, config_parser.cc 219-229. -/
def plusValueA (env : Env) (outer : Path) (v : AVal) (n : Nat) : Res (AVal × Nat) := do
  match ← concatenateA env [.ref v.origin n outer true 0, .list v.origin [v]] with
  | some c => .ok (c, n + 1)
  | none => .ub

/-- The loop for a trailing comment, config_parser.cc 232-256: the comment that follows the field after
nothing but commas and whitespace. -/
def trailing : List Node → Option Str
  | .comment t :: _ => some (commentText t)
  | .single .comma :: rest => trailing rest
  | .single (.ws _ _) :: rest => trailing rest
  | _ => none

/-- The trailing comment is put behind the others, config_parser.cc 240. -/
def appendTrailing (rest : List Node) (v : AVal) : AVal :=
  match trailing rest with
  | some c => append [c] v
  | none => v

/-- The state of the loops over the children of an object or array: `comments`, `last_was_newline` and
`_line_number`. -/
structure Loop where
  comments : List Str := []
  afterNewline : Bool := false
  line : Int
  deriving DecidableEq, Repr

/-- A comment, config_parser.cc 175-177. -/
def Loop.comment (s : Loop) (t : Tok) : Loop :=
  { s with comments := s.comments ++ [commentText t], afterNewline := false }

/-- A newline in an object, config_parser.cc 179-186: after another newline it drops the comments. -/
def Loop.newline (s : Loop) : Loop :=
  { comments := if s.afterNewline then [] else s.comments, afterNewline := true, line := s.line + 1 }

/-- `resolve_status_from_value`, simple_config_object.cc 261-266, in the constructor of the object. -/
def newObjA (o : Origin) (fs : AFields) : AVal := .obj o fs (fs.all fun f => f.2.erase.resolved) false

mutual
/-- `parse_value`, config_parser.cc 56-88: `cs` are the comments, `l` is `_line_number`. -/
def parseValueA (env : Env) (base : Origin) (inc : AIncluder) (json : Bool) (arr : Nat) (outer : Option Path) :
    Node → List Str → Int → Nat → Res (AVal × Int × Nat)
  | .simple t, cs, l, n => do
    let (v, n) ← getValueA env base t n
    .ok (prepend cs v, l, n)
  | .object ns, cs, l, n => do
    let (fs, l', n) ← parseFieldsA env base inc json arr outer ns { line := l } false [] n
    .ok (prepend cs (newObjA (base.withLineNumber l) fs), l', n)
  | .array ns, cs, l, n => do
    let (vs, l', n) ← parseElemsA env base inc json (arr + 1) outer ns { line := l } none n
    .ok (prepend cs (.list (base.withLineNumber l) vs), l', n)
  | .concat ns, cs, l, n =>
    if json then .err .bug
    else do
      let (vs, l, n) ← parsePiecesA env base inc json arr outer ns l n
      let v ← concatenateA env vs
      let v ← nonNullA v
      .ok (prepend cs v, l, n)
  | _, _, _, _ => .err .parse
/-- `parse_concatenation`, config_parser.cc 351-365. -/
def parsePiecesA (env : Env) (base : Origin) (inc : AIncluder) (json : Bool) (arr : Nat) (outer : Option Path) :
    List Node → Int → Nat → Res (List AVal × Int × Nat)
  | [], l, n => .ok ([], l, n)
  | c :: ns, l, n =>
    if c.isValue then do
      let (v, l, n) ← parseValueA env base inc json arr outer c [] l n
      let (vs, l, n) ← parsePiecesA env base inc json arr outer ns l n
      .ok (v :: vs, l, n)
    else parsePiecesA env base inc json arr outer ns l n
/-- The loop of `parse_array`, config_parser.cc 317-346; `v` is the element whose comments may still
follow. -/
def parseElemsA (env : Env) (base : Origin) (inc : AIncluder) (json : Bool) (arr : Nat) (outer : Option Path) :
    List Node → Loop → Option AVal → Nat → Res (List AVal × Int × Nat)
  | [], s, v, n => .ok ((v.map (append s.comments)).toList, s.line, n)
  | c :: ns, s, v, n =>
    if c.isValue then do
      let (w, l, n) ← parseValueA env base inc json arr outer c (if v.isSome then [] else s.comments) s.line n
      let (vs, l, n) ← parseElemsA env base inc json arr outer ns { line := l } (some w) n
      .ok ((v.map (append s.comments)).toList ++ vs, l, n)
    else
      match c, v with
      | .comment t, v => parseElemsA env base inc json arr outer ns (s.comment t) v n
      | .single (.newline _), none => parseElemsA env base inc json arr outer ns s.newline none n
      | .single (.newline _), some v => do
        let (vs, l, n) ← parseElemsA env base inc json arr outer ns
          { afterNewline := true, line := s.line + 1 } none n
        .ok (append s.comments v :: vs, l, n)
      | _, v => parseElemsA env base inc json arr outer ns s v n
/-- `parse_value(field->get_value(), comments)`, config_parser.cc 215-217 with config_node_field.cc 39-46. -/
def parseFieldValueA (env : Env) (base : Origin) (inc : AIncluder) (json : Bool) (arr : Nat) (outer : Option Path) :
    List Node → List Str → Int → Nat → Res (AVal × Int × Nat)
  | [], _, _, _ => .err .config
  | c :: ns, cs, l, n =>
    if c.isValue then parseValueA env base inc json arr outer c cs l n
    else parseFieldValueA env base inc json arr outer ns cs l n
/-- The loop of `parse_object`, config_parser.cc 173-293. `taken` says that the next comment has been
taken by the field before it: the code moves its index there (233-255), here the nodes in between
are passed once more, which has no effect. -/
def parseFieldsA (env : Env) (base : Origin) (inc : AIncluder) (json : Bool) (arr : Nat) (outer : Option Path) :
    List Node → Loop → Bool → AFields → Nat → Res (AFields × Int × Nat)
  | [], s, _, fs, n => .ok (fs, s.line, n)
  | .comment t :: rest, s, taken, fs, n =>
    parseFieldsA env base inc json arr outer rest (if taken then s else s.comment t) false fs n
  | .incl cs kind :: rest, s, _, fs, n =>
    if json then parseFieldsA env base inc json arr outer rest s false fs n
    else do
      let (fs, n) ← parseIncludeA env inc arr kind cs fs n
      parseFieldsA env base inc json arr outer rest { s with afterNewline := false } false fs n
  | .field cs :: rest, s, _, fs, n => do
    let (p, _) ← Node.fieldPath cs
    if ConfigParser.isPlusEquals cs then
      if arr > 0 then .err .parse
      else do
        let (v, l, n) ← parseFieldValueA env base inc json (arr + 1) (some (ConfigParser.pushPath outer p)) cs
          (s.comments ++ Node.fieldComments cs) s.line n
        let (v, n) ← plusValueA env (ConfigParser.pushPath outer p) v n
        let fs ← putFieldA json fs p (appendTrailing rest v)
        parseFieldsA env base inc json arr outer rest { line := l } (trailing rest).isSome fs n
    else do
      let (v, l, n) ← parseFieldValueA env base inc json arr (some (ConfigParser.pushPath outer p)) cs
        (s.comments ++ Node.fieldComments cs) s.line n
      let fs ← putFieldA json fs p (appendTrailing rest v)
      parseFieldsA env base inc json arr outer rest { line := l } (trailing rest).isSome fs n
  | .single (.newline _) :: rest, s, taken, fs, n => parseFieldsA env base inc json arr outer rest s.newline taken fs n
  | _ :: rest, s, taken, fs, n => parseFieldsA env base inc json arr outer rest s taken fs n
end

/-- The loop of `parse_context::parse`, config_parser.cc 367-398. -/
def parseRootA (env : Env) (base : Origin) (inc : AIncluder) (json : Bool) :
    List Node → Loop → Option AVal → Nat → Res (Option AVal × Nat)
  | [], _, r, n => .ok (r, n)
  | c :: cs, s, r, n =>
    if c.isComplex then do
      let (v, l, n) ← parseValueA env base inc json 0 none c s.comments s.line n
      parseRootA env base inc json cs { line := l } (some v) n
    else
      match c, r with
      | .comment t, r => parseRootA env base inc json cs (s.comment t) r n
      | .single (.newline _), some v => .ok (some (append s.comments v), n)
      | .single (.newline _), none => parseRootA env base inc json cs s.newline none n
      | _, r => parseRootA env base inc json cs s r n

/-- `config_parser::parse` on the document parsed from a text with the origin `base`:
`parseable::raw_parse_value`, parseable.cc 226-232, and config_parser.cc 27-42. -/
def parseTextA (env : Env) (base : Origin) (inc : AIncluder) (fl : PathParser.Syntax) (s : Str) (n : Nat) :
    Res (AVal × Nat) := do
  let cs ← DocParser.parseDocument env fl s
  let (v, n) ← parseRootA env base inc (fl = .json) cs { line := 1 } none n
  let v ← nonNullA v
  .ok (v, n)

end Notes
end Hocon
