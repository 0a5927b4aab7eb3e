import Verif.DocEdit
import Verif.RenderNotes

/-!
# Setting a value in a document

Model of `simple_config_document::with_value`, lib/src/simple_config_document.cc 35-46.
-/

set_option autoImplicit false

namespace Hocon
namespace DocEdit

/-- The options `with_value` renders with: the defaults without the descriptions of origins,
simple_config_document.cc 41-42. -/
def valueOptions : Notes.Options := { origins := false }

/-- The text `with_value` writes for a value, simple_config_document.cc 41-44: rendered with
`valueOptions`, without surrounding whitespace (`boost::trim`). -/
def valueText (env : Env) (v : Notes.AVal) : Str := PathParser.trim (Notes.renderValue env valueOptions v)

/-- `simple_config_document::with_value`, simple_config_document.cc 35-46; no value stands for a null
pointer. -/
def Doc.withValue (env : Env) (d : Doc) (path : Str) : Option Notes.AVal → Res Doc
  | none => .err .config
  | some v => d.withValueText env path (valueText env v)

end DocEdit
end Hocon
