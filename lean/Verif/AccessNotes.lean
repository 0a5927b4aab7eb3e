import Verif.ParseNotes
import Verif.Access

/-!
# Looking up values with their origins

Model of `config_object::peek_path` (`lib/src/values/config_object.cc`) as in `Verif/Access.lean`, on values that
carry their origins. That both find the same values is proved in `Verif/Lemmas/AccessNotesErase.lean`.
-/

set_option autoImplicit false

namespace Hocon
namespace Notes

mutual
/-- `attempt_peek_with_partial_resolve`, simple_config_object.cc 69-76 and config_delayed_merge_object.cc
62-127, as in `Value.attemptPeek`. -/
def attemptPeekA (v : AVal) (k : Str) : Res (Option AVal) :=
  match v with
  | .obj _ fs _ _ => .ok (findKeyA fs k)
  | .dmo _ st => peekStackA st k
  | _ => .ub
/-- The loop over the stack, config_delayed_merge_object.cc 77-126, as in `Value.peekStack`. -/
def peekStackA (st : List AVal) (k : Str) : Res (Option AVal) :=
  match st with
  | [] => .err .bug
  | layer :: rest =>
    if layer.erase.isObject then
      (attemptPeekA layer k).bind fun o =>
        match o with
        | some v => if v.erase.ignoresFallbacks then .ok (some v) else peekStackA rest k
        | none => if layer.erase.isUnmergeable then .err .bug else peekStackA rest k
    else if layer.erase.isUnmergeable then .err .notResolved
    else if !layer.erase.resolved then peekStackA rest k
    else if !layer.erase.ignoresFallbacks then .err .bug
    else .ok none
end

/-- `config_object::peek_path`, config_object.cc 18-39. -/
def peekPathA : AVal → Path → Res (Option AVal)
  | _, [] => .ub
  | self, k :: next => Value.recatch ((attemptPeekA self k).bind fun v =>
    if next.isEmpty then .ok v
    else match v with
      | some w => if w.erase.isObject then peekPathA w next else .ok none
      | none => .ok none)

end Notes
end Hocon
