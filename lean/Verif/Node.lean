import Verif.PathParser

/-!
# Syntax-tree nodes

Model of `lib/src/nodes/*.cc` (the text-preserving tree behind `config_document`), except the editing
operations, which are in `Verif/DocEdit.lean`.
-/

namespace Hocon

/-- `config_include_kind`, `lib/inc/internal/config_include_kind.hpp`. -/
inductive IncludeKind where
  | url
  | file
  | classpath
  | heuristic
  deriving DecidableEq, Repr

/-- The node classes of `lib/inc/internal/nodes`. `config_node_comment` is a subclass of
`config_node_single_token`; `simple`, `field`, `object`, `array`, `concat` are the subclasses of
`abstract_config_node_value`. `config_node_root` is modelled by its list of children, since a root
never occurs inside another node. -/
inductive Node where
  /-- `config_node_single_token` -/
  | single (t : Tok)
  /-- `config_node_comment` -/
  | comment (t : Tok)
  /-- `config_node_path` -/
  | path (p : Path) (toks : List Tok)
  /-- `config_node_simple_value` -/
  | simple (t : Tok)
  /-- `config_node_field` -/
  | field (cs : List Node)
  /-- `config_node_include` -/
  | incl (cs : List Node) (kind : IncludeKind)
  /-- `config_node_object` -/
  | object (cs : List Node)
  /-- `config_node_array` -/
  | array (cs : List Node)
  /-- `config_node_concatenation` -/
  | concat (cs : List Node)
  deriving Repr

namespace Node

mutual
/-- `get_tokens`: config_node_single_token.cc 10-12, config_node_path.cc 15-17,
config_node_simple_value.cc 24-26, config_node_field.cc 19-26, config_node_include.cc 12-19,
config_node_complex_value.cc 17-26. -/
def tokens : Node → List Tok
  | .single t => [t]
  | .comment t => [t]
  | .path _ ts => ts
  | .simple t => [t]
  | .field cs => tokensList cs
  | .incl cs _ => tokensList cs
  | .object cs => tokensList cs
  | .array cs => tokensList cs
  | .concat cs => tokensList cs
/-- The loop over the children in the `get_tokens` of the composite nodes. -/
def tokensList : List Node → List Tok
  | [] => []
  | n :: ns => tokens n ++ tokensList ns
end

/-- `abstract_config_node::render`, abstract_config_node.cc 7-13. -/
def render (n : Node) : Str := Tok.textList n.tokens

/-- `config_node_root::render` (same function, on the children of the root). -/
def renderList (ns : List Node) : Str := Tok.textList (tokensList ns)

/-- `dynamic_pointer_cast<const config_node_single_token>` succeeds (comments included): the token. -/
def singleToken? : Node → Option Tok
  | .single t => some t
  | .comment t => some t
  | _ => none

/-- `dynamic_pointer_cast<const abstract_config_node_value>` succeeds. -/
def isValue : Node → Bool
  | .simple _ => true
  | .field _ => true
  | .object _ => true
  | .array _ => true
  | .concat _ => true
  | _ => false

/-- `dynamic_pointer_cast<const config_node_complex_value>` succeeds. -/
def isComplex : Node → Bool
  | .object _ => true
  | .array _ => true
  | .concat _ => true
  | _ => false

/-- `config_node_field::get_value`, config_node_field.cc 39-46, on the children of the field. -/
def fieldValue : List Node → Res Node
  | [] => .err .config
  | n :: ns => if n.isValue then .ok n else fieldValue ns

/-- `config_node_field::path`, config_node_field.cc 48-55. -/
def fieldPath : List Node → Res (Path × List Tok)
  | [] => .err .config
  | .path p ts :: _ => .ok (p, ts)
  | _ :: ns => fieldPath ns

/-- `config_node_field::replace_value`, config_node_field.cc 28-37. -/
def replaceValue (v : Node) : List Node → Res (List Node)
  | [] => .err .config
  | n :: ns =>
    if n.isValue then .ok (v :: ns)
    else do
      let ns' ← replaceValue v ns
      .ok (n :: ns')

/-- `config_node_field::separator`, config_node_field.cc 57-67. -/
def fieldSeparator : List Node → Option Tok
  | [] => none
  | n :: ns =>
    match n.singleToken? with
    | some .plusEquals => some .plusEquals
    | some .colon => some .colon
    | some .equals => some .equals
    | _ => fieldSeparator ns

/-- `config_node_field::comments`, config_node_field.cc 69-78; the text is `comment::text()`
(without the comment marker). -/
def fieldComments : List Node → List Str
  | [] => []
  | .comment (.comment _ text _) :: ns => text :: fieldComments ns
  | _ :: ns => fieldComments ns

theorem tokensList_append (a b : List Node) : tokensList (a ++ b) = tokensList a ++ tokensList b := by
  induction a with
  | nil => rfl
  | cons n ns ih => simp [tokensList, ih]

end Node
end Hocon
