import Verif.DocParser

/-!
# Editing documents

Model of `lib/src/simple_config_document.cc` and of the editing operations of
`lib/src/nodes/config_node_object.cc`, `config_node_root.cc`, `config_node_complex_value.cc`,
`config_node_path.cc`. A document is the list of children of its root and the syntax of its parse
options.

The loops of the code run over a copy of the vector of children from the last index to the first and
erase or insert at or behind the current index; the recursions below treat the tail of the list first
and rebuild it, which is the same thing.
-/

namespace Hocon

/-- `t == tokens::comma_token()` (pointer comparison with the singleton), config_node_object.cc 50, 69. -/
def Tok.isComma : Tok → Bool
  | .comma => true
  | _ => false

/-- `get_token_type() == token_type::NEWLINE`. -/
def Tok.isNewline : Tok → Bool
  | .newline _ => true
  | _ => false

/-- `get_token_type() == token_type::IGNORED_WHITESPACE`. -/
def Tok.isWs : Tok → Bool
  | .ws .. => true
  | _ => false

/-- `get_token_type() == token_type::CLOSE_CURLY`. -/
def Tok.isCloseCurly : Tok → Bool
  | .closeCurly => true
  | _ => false

/-- `get_token_type() == UNQUOTED_TEXT && token_text() == "."`, config_node_path.cc 27, 41. -/
def Tok.isDot : Tok → Bool
  | .unquoted s _ => s = ['.']
  | _ => false

namespace Node

/-- `config_node_object::contains_token`, config_node_object.cc 310-316, for a token class given by a
test. -/
def hasTok (p : Tok → Bool) (n : Node) : Bool :=
  match n.singleToken? with
  | some t => p t
  | none => false

/-- `dynamic_pointer_cast<const config_node_field>` succeeds. -/
def isField : Node → Bool
  | .field _ => true
  | _ => false

/-- `dynamic_pointer_cast<const config_node_include>` succeeds. -/
def isInclude : Node → Bool
  | .incl .. => true
  | _ => false

end Node

namespace DocEdit
open PathParser (Syntax)
open Node
open PathM (startsWith subPath)

/-! ## Looking up -/

mutual
/-- `config_node_object::has_value`, config_node_object.cc 20-37, on the children of the object. -/
def hasValue (desired : Path) : List Node → Res Bool
  | [] => .ok false
  | n :: ns => do
    let found ← hasField desired n
    if found then .ok true else hasValue desired ns
/-- The body of the loop of `has_value`, lines 22-34: `true` = return true, `false` = go on. -/
def hasField (desired : Path) : Node → Res Bool
  | .field cs => do
    let (key, _) ← fieldPath cs
    let hit ← if PathM.beq key desired then .ok true else startsWith key desired
    if hit then .ok true
    else do
      let below ← startsWith desired key
      if below then hasValueIn (subPath (PathM.length key) desired) cs else .ok false
  | _ => .ok false
/-- `field->get_value()` in line 27 of config_node_object.cc, continued by `hasInObject`. -/
def hasValueIn (rem : Path) : List Node → Res Bool
  | [] => .err .config
  | n :: ns => if n.isValue then hasInObject rem n else hasValueIn rem ns
/-- Lines 27-32 of config_node_object.cc: if the value is an object, look inside. -/
def hasInObject (rem : Path) : Node → Res Bool
  | .object ocs => hasValue rem ocs
  | _ => .ok false
end

/-! ## Indentation -/

mutual
/-- `config_node_complex_value::indent_text`, config_node_complex_value.cc 28-48, on a complex
node, and the treatment of a child (lines 34-45): a field has its value indented, a complex node is
indented, other nodes stay. -/
def indentNode (ind : Node) : Node → Res Node
  | .object cs => do
    let cs' ← indentList ind cs
    .ok (.object cs')
  | .array cs => do
    let cs' ← indentList ind cs
    .ok (.array cs')
  | .concat cs => do
    let cs' ← indentList ind cs
    .ok (.concat cs')
  | .field cs => do
    let cs' ← indentField ind cs
    .ok (.field cs')
  | n => .ok n
/-- The loop of `indent_text` (lines 32-46). The inserted node is itself visited by the next
iteration: it is a single token, so nothing happens unless it is a newline, in which case another
copy is inserted and so on forever. That divergence is the outcome `fuel`
(see `indentRaw_diverges` in `Verif/Props/DocEditProps.lean`). -/
def indentList (ind : Node) : List Node → Res (List Node)
  | [] => .ok []
  | n :: ns => do
    let n' ← indentNode ind n
    if n.hasTok Tok.isNewline then
      if ind.hasTok Tok.isNewline then .fuel
      else do
        let ns' ← indentList ind ns
        .ok (n' :: ind :: ns')
    else do
      let ns' ← indentList ind ns
      .ok (n' :: ns')
/-- Lines 39-42 of config_node_complex_value.cc: `get_value`, and `replace_value` if it is complex. -/
def indentField (ind : Node) : List Node → Res (List Node)
  | [] => .err .config
  | n :: ns =>
    if n.isComplex then do
      let n' ← indentNode ind n
      .ok (n' :: ns)
    else if n.isValue then .ok (n :: ns)
    else do
      let ns' ← indentField ind ns
      .ok (n :: ns')
end

/-- The next child is a field or an include, config_node_object.cc 148-152. -/
def startsWithEntry : List Node → Bool
  | m :: _ => m.isField || m.isInclude
  | [] => false

/-- The loop of `config_node_object::indentation`, config_node_object.cc 138-158: `seen` is
`seen_new_line`. Returns the whitespace in front of a field or include (if found) and whether a newline
was seen. -/
def indentScan (seen : Bool) : List Node → Option Node × Bool
  | [] => (none, seen)
  | n :: ns =>
    if !seen then indentScan (n.hasTok Tok.isNewline) ns
    else if n.hasTok Tok.isWs && startsWithEntry ns then
      (some n, seen)
    else indentScan seen ns

/-- `make_shared<line>(nullptr)` as a node. -/
def lineNode : Node := .single (.newline (-1))

/-- `make_shared<ignored_whitespace>(nullptr, s)` as a node. -/
def wsNode (s : Str) : Node := .single (.ws s (-1))

/-- Text of the whitespace in front of the last child, lines 166-171. -/
def lastIndent (cs : List Node) : Str :=
  match cs.reverse with
  | _ :: b :: _ => if b.hasTok Tok.isWs then b.render else []
  | _ => []

/-- The last child is a closing brace, config_node_object.cc 164-165. -/
def endsWithClose (cs : List Node) : Bool :=
  match cs.getLast? with
  | some l => l.hasTok Tok.isCloseCurly
  | none => false

/-- `config_node_object::indentation`, config_node_object.cc 132-180. -/
def indentation (cs : List Node) : List Node :=
  if cs.isEmpty then []
  else match indentScan false cs with
    | (some w, _) => [lineNode, w]
    | (none, false) => [wsNode [' ']]
    | (none, true) =>
      if endsWithClose cs then
        [lineNode, wsNode (lastIndent cs ++ [' ', ' '])]
      else [lineNode]

/-! ## Changing and removing -/

/-- The erasing loop, config_node_object.cc 66-78. -/
def dropSep : List Node → List Node
  | [] => []
  | n :: ns => if n.hasTok Tok.isWs || n.hasTok Tok.isComma then dropSep ns else n :: ns

/-- The value written by `change_value_on_path`, config_node_object.cc 81-95; `i` is the index of the
field and `prev` the child before it. -/
def indentedValue (i : Nat) (prev : Option Node) (v : Node) : Res Node :=
  match prev with
  | some b => if i ≥ 2 && v.isComplex && b.hasTok Tok.isWs then indentNode b v else .ok v
  | none => .ok v

/-- Lines 80-97 of config_node_object.cc: the field with its value replaced. `vc` is `value_copy`,
which is not null here. -/
def setField (i : Nat) (prev vc : Option Node) (cs : List Node) : Res (List Node) :=
  match vc with
  | some v => do
    let v' ← indentedValue i prev v
    replaceValue v' cs
  | none => .ub

mutual
/-- `config_node_object::change_value_on_path`, config_node_object.cc 39-113. `value = none` removes.
`i` is the index of the head of the list, `prev` the child before it. Returns the new children from
here on, `seen_non_matching` and `value_copy`. -/
def changeLoop (fl : Syntax) (desired : Path) (value : Option Node) :
    Nat → Option Node → List Node → Res (List Node × Bool × Option Node)
  | _, _, [] => .ok ([], false, value)
  | i, prev, n :: ns => do
    let (rest, seen, vc) ← changeLoop fl desired value (i + 1) (some n) ns
    changeNode fl desired i prev rest seen vc n
/-- The body of the loop of `change_value_on_path`, lines 46-110; `rest` are the children behind the
current one, `vc` is `value_copy`. The test in line 104 compares the field with itself
(`children()[i]` is the unmodified child), so `value_copy` is not changed by a recursive call. -/
def changeNode (fl : Syntax) (desired : Path) (i : Nat) (prev : Option Node) (rest : List Node)
    (seen : Bool) (vc : Option Node) : Node → Res (List Node × Bool × Option Node)
  | .field cs => do
    let (key, _) ← fieldPath cs
    let eq := PathM.beq key desired
    let del ← if vc.isNone && eq then .ok true
      else do
        let s ← startsWith key desired
        .ok (s && !eq)
    if del then .ok (dropSep rest, seen, vc)
    else if eq then do
      let cs' ← setField i prev vc cs
      .ok (.field cs' :: rest, true, none)
    else do
      let below ← startsWith desired key
      if below then do
        let cs' ← changeField fl (subPath (PathM.length key) desired) vc cs
        .ok (.field cs' :: rest, true, vc)
      else .ok (.field cs :: rest, true, vc)
  | n =>
    if fl = .json && !seen && n.hasTok Tok.isComma then .ok (rest, seen, vc)
    else .ok (n :: rest, seen, vc)
/-- Lines 100-103 of config_node_object.cc: `get_value`, and `replace_value` if it is an object. -/
def changeField (fl : Syntax) (rem : Path) (value : Option Node) : List Node → Res (List Node)
  | [] => .err .config
  | n :: ns =>
    if n.isValue then do
      let n' ← changeInObject fl rem value n
      .ok (n' :: ns)
    else do
      let ns' ← changeField fl rem value ns
      .ok (n :: ns')
/-- Lines 100-103 of config_node_object.cc, on the value: an object is changed recursively. -/
def changeInObject (fl : Syntax) (rem : Path) (value : Option Node) : Node → Res Node
  | .object ocs => do
    let (ocs', _, _) ← changeLoop fl rem value 0 none ocs
    .ok (.object ocs')
  | n => .ok n
end

/-- `change_value_on_path` on the children of an object. -/
def changeValue (fl : Syntax) (desired : Path) (value : Option Node) (cs : List Node) :
    Res (List Node) := do
  let (cs', _, _) ← changeLoop fl desired value 0 none cs
  .ok cs'

/-! ## Adding -/

/-- The tokens of `config_node_path::sub_path`, config_node_path.cc 23-36: what follows the
`toRemove`-th period (`count` is `period_count`). The path is `path::sub_path(toRemove)`. -/
def subTokens (toRemove count : Nat) : List Tok → Res (List Tok)
  | [] => .err .config
  | t :: ts =>
    let count' := if t.isDot then count + 1 else count
    if count' = toRemove then .ok ts else subTokens toRemove count' ts

/-- `config_node_path::first`, config_node_path.cc 38-46. -/
def firstNode (p : Path) (toks : List Tok) : Res Node :=
  if toks.any Tok.isDot then do
    let p' ← PathM.subPathRange 0 1 p
    .ok (.path p' (toks.takeWhile fun t => !t.isDot))
  else .ok (.path p toks)

/-- `indented_value`, config_node_object.cc 191-198: a complex value is indented by the last node of
the indentation. -/
def indentedNew (indent : List Node) (value : Node) : Res Node :=
  match indent.getLast? with
  | some l => if value.isComplex then indentNode l value else .ok value
  | none => .ok value

/-- `same_line`, config_node_object.cc 199-203: the indentation does not begin with a newline. -/
def sameLineAs : List Node → Bool
  | n :: _ => !n.hasTok Tok.isNewline
  | [] => true

/-- First lines of `add_value_on_path`, config_node_object.cc 188-203: the indentation, the indented
value and `same_line`. -/
def prepare (cs : List Node) (value : Node) : Res (List Node × Node × Bool) := do
  let iv ← indentedNew (indentation cs) value
  .ok (indentation cs, iv, sameLineAs (indentation cs))

/-- The test for a comma directly behind the current index, config_node_object.cc 259-260. -/
def startsWithComma : List Node → Bool
  | d :: _ => d.hasTok Tok.isComma
  | [] => false

/-- `starts_with_brace`, config_node_object.cc 223: the first child is an opening brace. -/
def startsWithBrace : List Node → Bool
  | .single .openCurly :: _ => true
  | _ => false

/-- The loop at config_node_object.cc 254-290. `todo` are the children up to the current index, last
one first; `done` those behind it. -/
def insertLoop (fl : Syntax) (brace sameLine : Bool) (new : Node) (done : List Node) :
    List Node → Res (List Node)
  | [] => .ok done
  | c :: rest =>
    if (fl = .json || sameLine) && c.isField &&
        !startsWithComma done then
      .ok (rest.reverse ++ c :: .single .comma :: done)
    else if brace && c.hasTok Tok.isCloseCurly then
      match rest with
      | [] => .ub
      | prev :: rest1 =>
        if prev.hasTok Tok.isNewline then
          insertLoop fl brace sameLine new (new :: prev :: c :: done) rest1
        else if prev.hasTok Tok.isWs then
          match rest1 with
          | [] => .ub
          | before :: rest2 =>
            if sameLine then insertLoop fl brace sameLine new (new :: prev :: c :: done) (before :: rest2)
            else if before.hasTok Tok.isNewline then
              insertLoop fl brace sameLine new (new :: before :: prev :: c :: done) rest2
            else insertLoop fl brace sameLine new (new :: c :: done) (prev :: before :: rest2)
        else insertLoop fl brace sameLine new (new :: c :: done) (prev :: rest1)
    else insertLoop fl brace sameLine new (c :: done) rest

/-- The guarded loop, config_node_object.cc 252-290. -/
def insertBase (fl : Syntax) (sameLine : Bool) (new : Node) (cs : List Node) : Res (List Node) :=
  if fl = .json || startsWithBrace cs || sameLine then
    insertLoop fl (startsWithBrace cs) sameLine new [] cs.reverse
  else .ok cs

/-- The new setting at the end of an object without braces, config_node_object.cc 291-299. -/
def insertEnd (new : Node) (cs1 : List Node) : List Node :=
  match cs1.getLast? with
  | some l => if l.hasTok Tok.isNewline then cs1.dropLast ++ [new, l] else cs1 ++ [new]
  | none => [new]

/-- Lines 252-299 of config_node_object.cc: put the new setting among the children. -/
def insertNew (fl : Syntax) (sameLine : Bool) (new : Node) (cs : List Node) : Res (List Node) := do
  let cs1 ← insertBase fl sameLine new cs
  .ok (if startsWithBrace cs then cs1 else insertEnd new cs1)

/-- Children of the object created for the rest of a path, config_node_object.cc 241-248. -/
def newObjectNodes (indent : List Node) : List Node :=
  .single .openCurly :: (if indent.isEmpty then [lineNode] else []) ++ indent ++ [.single .closeCurly]

/-- `new_nodes`, config_node_object.cc 229-238: the new setting. -/
def newField (indent : List Node) (f v : Node) : Node :=
  .field (indent ++ [f, wsNode [' '], .single .colon, wsNode [' '], v])

/-- The end of `add_value_on_path` (construct the new setting and insert it),
config_node_object.cc 222-300. The path is consumed by the recursion for the created objects
(`add_value_on_path` on an object without fields, line 249): `desired_path.sub_path(1)` of a path with
at least two elements is its tail. -/
def buildNew (fl : Syntax) (iv : Node) (indent : List Node) (sameLine : Bool) (cs : List Node) :
    Path → List Tok → Res (List Node)
  | k :: k2 :: rest, toks => do
    let f ← firstNode (k :: k2 :: rest) toks
    let toks' ← subTokens 1 0 toks
    let (indent', iv', sameLine') ← prepare (newObjectNodes indent) iv
    let ocs ← buildNew fl iv' indent' sameLine' (newObjectNodes indent) (k2 :: rest) toks'
    insertNew fl sameLine (newField indent f (.object ocs)) cs
  | p, toks => do
    let f ← firstNode p toks
    insertNew fl sameLine (newField indent f iv) cs

/-- The result of the search in lines 205-220 of config_node_object.cc, which is only made for a path
of more than one element (`inner` is the search itself). -/
def searchFields (p : Path) (inner : Res (Option (List Node))) : Res (Option (List Node)) :=
  if PathM.length p > 1 then inner else .ok none

/-- The end of `add_value_on_path` once the result `inner` of the search at lines 205-220 is known. -/
def addFinish (fl : Syntax) (value : Node) (p : Path) (toks : List Tok) (cs : List Node)
    (inner : Res (Option (List Node))) : Res (List Node) := do
  let (indent, iv, sameLine) ← prepare cs value
  let r ← searchFields p inner
  match r with
  | some cs' => .ok cs'
  | none => buildNew fl iv indent sameLine cs p toks

mutual
/-- The search at config_node_object.cc 205-220: the last field with an object value whose key is a
prefix of the path. `none` if there is none. -/
def addIn (fl : Syntax) (value : Node) (p : Path) (toks : List Tok) :
    List Node → Res (Option (List Node))
  | [] => .ok none
  | n :: ns => do
    let r ← addIn fl value p toks ns
    match r with
    | some ns' => .ok (some (n :: ns'))
    | none => do
      let r ← addNode fl value p toks n
      .ok (r.map (· :: ns))
/-- The body of that loop, lines 208-218. -/
def addNode (fl : Syntax) (value : Node) (p : Path) (toks : List Tok) : Node → Res (Option Node)
  | .field cs => do
    let (key, _) ← fieldPath cs
    let below ← startsWith p key
    if below then do
      let r ← addField fl value (PathM.length key) p toks cs
      .ok (r.map Node.field)
    else .ok none
  | _ => .ok none
/-- `field->get_value()` and `replace_value` in lines 211-213 of config_node_object.cc. -/
def addField (fl : Syntax) (value : Node) (klen : Nat) (p : Path) (toks : List Tok) :
    List Node → Res (Option (List Node))
  | [] => .err .config
  | n :: ns =>
    if n.isValue then do
      let r ← addInObject fl value klen p toks n
      .ok (r.map (· :: ns))
    else do
      let r ← addField fl value klen p toks ns
      .ok (r.map (n :: ·))
/-- Lines 211-214 of config_node_object.cc: if the value is an object, add to it. -/
def addInObject (fl : Syntax) (value : Node) (klen : Nat) (p : Path) (toks : List Tok) :
    Node → Res (Option Node)
  | .object ocs => do
    let toks' ← subTokens klen 0 toks
    let p' := subPath klen p
    let ocs' ← addFinish fl value p' toks' ocs (addIn fl value p' toks' ocs)
    .ok (some (.object ocs'))
  | _ => .ok none
end

/-- `config_node_object::add_value_on_path`, config_node_object.cc 182-301. -/
def addValue (fl : Syntax) (p : Path) (toks : List Tok) (value : Node) (cs : List Node) :
    Res (List Node) :=
  addFinish fl value p toks cs (addIn fl value p toks cs)

/-- `config_node_object::set_value_on_path`, config_node_object.cc 121-130. -/
def setValue (fl : Syntax) (p : Path) (toks : List Tok) (value : Node) (cs : List Node) :
    Res (List Node) := do
  let cs1 ← changeValue fl p (some value) cs
  let has ← hasValue p cs1
  if has then .ok cs1 else addValue fl p toks value cs1

/-! ## Documents -/

/-- `simple_config_document`: the children of the root node and the syntax of the parse options. -/
structure Doc where
  root : List Node
  fl : Syntax
  deriving Repr

/-- `config_node_root::set_value` and `has_value`, config_node_root.cc 31-68, up to the use of the
object: the children before it, its children, those after it. -/
def findObject : List Node → Res (List Node × List Node × List Node)
  | [] => .err .config
  | n :: ns =>
    match n with
    | .array _ => .err .config
    | .object cs => .ok ([], cs, ns)
    | _ => do
      let (a, cs, b) ← findObject ns
      .ok (n :: a, cs, b)

/-- `config_node_root::set_value` on the object, config_node_root.cc 41-46: removal when there is no
value. -/
def objectSet (fl : Syntax) (p : Path) (toks : List Tok) (value : Option Node) (cs : List Node) :
    Res (List Node) :=
  match value with
  | none => changeValue fl p none cs
  | some v => setValue fl p toks v cs

/-- `config_node_root::set_value`, config_node_root.cc 31-52. -/
def rootSet (env : Env) (fl : Syntax) (path : Str) (value : Option Node) (root : List Node) :
    Res (List Node) := do
  let (a, cs, b) ← findObject root
  let (p, toks) ← PathParser.parsePathNode env fl path
  let cs' ← objectSet fl p toks value cs
  .ok (a ++ .object cs' :: b)

/-- `simple_config_document::has_path` and `config_node_root::has_value`,
simple_config_document.cc 54-57, config_node_root.cc 54-68. -/
def Doc.hasPath (env : Env) (d : Doc) (path : Str) : Res Bool := do
  let p ← PathParser.newPath env path
  let (_, cs, _) ← findObject d.root
  hasValue p cs

/-- `simple_config_document::without_path`, simple_config_document.cc 48-52. -/
def Doc.withoutPath (env : Env) (d : Doc) (path : Str) : Res Doc := do
  let root ← rootSet env d.fl path none d.root
  .ok ⟨root, d.fl⟩

/-- `simple_config_document::with_value_text`, simple_config_document.cc 20-33. An empty value throws
a pointer. -/
def Doc.withValueText (env : Env) (d : Doc) (path text : Str) : Res Doc :=
  if text.isEmpty then .err .foreign
  else do
    let toks ← Tokenizer.tokenize env (d.fl = .conf) text
    let v ← DocParser.parseSingleValue env d.fl toks
    let root ← rootSet env d.fl path v d.root
    .ok ⟨root, d.fl⟩

/-- `simple_config_document::render`, simple_config_document.cc 59-62. -/
def Doc.render (d : Doc) : Str := renderList d.root

/-- `config_document_factory::parse_string`: parse a text into a document. -/
def Doc.parse (env : Env) (fl : Syntax) (s : Str) : Res Doc := do
  let root ← DocParser.parseDocument env fl s
  .ok ⟨root, fl⟩

end DocEdit
end Hocon
