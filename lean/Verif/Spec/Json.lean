import Verif.Token

/-!
# The JSON token language (specification)

The grammar of RFC 8259 over tokens, used to state what JSON mode accepts. It does not refer to the
parser model.
-/

namespace Hocon
namespace Spec

/-- Nonterminals: a value, the members of an object with their keys in order, the elements of an
array. -/
inductive JKind where
  | value
  | members (keys : List Str)
  | elems

/-- `JGram k ts`: the tokens `ts` (without whitespace) derive from the nonterminal `k`. Keys within
one object are distinct. -/
inductive JGram : JKind → List Tok → Prop where
  | scalar (v : Scalar) (text : Str) (line : Int) : JGram .value [.value v text line]
  | emptyObj : JGram .value [.openCurly, .closeCurly]
  | obj {keys : List Str} {ts : List Tok} (hn : keys.Nodup) (h : JGram (.members keys) ts) :
      JGram .value (.openCurly :: ts ++ [.closeCurly])
  | emptyArr : JGram .value [.openSquare, .closeSquare]
  | arr {ts : List Tok} (h : JGram .elems ts) : JGram .value (.openSquare :: ts ++ [.closeSquare])
  | member {k : Str} {q : Bool} {text : Str} {line : Int} {ts : List Tok} (h : JGram .value ts) :
      JGram (.members [k]) (.value (.str k q) text line :: .colon :: ts)
  | memberCons {k : Str} {q : Bool} {text : Str} {line : Int} {ts us : List Tok} {keys : List Str}
      (h : JGram .value ts) (h' : JGram (.members keys) us) :
      JGram (.members (k :: keys)) (.value (.str k q) text line :: .colon :: ts ++ .comma :: us)
  | elem {ts : List Tok} (h : JGram .value ts) : JGram .elems ts
  | elemCons {ts us : List Tok} (h : JGram .value ts) (h' : JGram .elems us) :
      JGram .elems (ts ++ .comma :: us)

/-- Tokens that carry no meaning: whitespace, newlines, comments, and the unquoted whitespace the
tokenizer emits between simple values. -/
def blankTok : Tok → Bool
  | .ws .. => true
  | .newline _ => true
  | .comment .. => true
  | .unquoted s _ => s.all isWhitespace
  | _ => false

/-- The tokens of JSON texts. -/
def jsonTok : Tok → Bool
  | .openCurly | .closeCurly | .openSquare | .closeSquare | .comma | .colon => true
  | .value .. => true
  | _ => false

end Spec
end Hocon
