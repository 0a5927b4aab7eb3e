import Verif.Props.EditReadProps

/-!
# Included files as layers, for the default includer: C56
-/

set_option autoImplicit false

namespace Hocon
namespace EditRead
open Value ConfigParser Files Spec
open PathParser (Syntax)
open Tokenizer (exEnv)

/-- **C56 (files).** A HOCON file in a file system without substitutions, read with the default includer and
`config::resolve`: its value is a config without substitutions in which every field of the file, and every object that an
include statement brings, is merged over what is written before it. No reference is made. -/
theorem C56_files (env : Env) (fs : FS) (hfs : PlainFiles env fs) (k : Nat) (ro : Resolve.Options) (fuel : Nat)
    {res : Value → Res Value} (hres : res = fun x => (Resolve.configResolve env k x ro).bind fun o => nonNull o)
    (f : Str) {root a cs b : List Node} (hd : DocParser.parseDocument env .conf (contents fs f) = .ok root)
    (hf : DocEdit.findObject root = .ok (a, cs, b)) {n m : Nat} {v : Value}
    (h : loadFile env fs res (fuel + 1) f .conf n = .ok (v, m)) :
    m = n ∧ v.Plain ∧ v.isObject = true ∧
    ∃ ls, Contributes env (includer (loadFile env fs res fuel) res (dirOf f)) 0 none cs ls ∧
      ∀ q, q ≠ [] → Through ls.reverse q (look v q) := by
  have hidle : Idle res := hres ▸ resolve_idle env k ro
  have htame := files_tame hfs hidle fuel (dirOf f)
  obtain ⟨e1, e2, e3, _⟩ := loadFile_plain hfs hidle (fuel + 1) f .conf n v m h
  refine ⟨e1, e2, e3, ?_⟩
  have hst := hfs f .conf root hd
  have hroot := (DocEdit.findObject_spec hf).1
  have hd0 := hd
  rw [DocParser.parseDocument, Res.bind_eq_ok] at hd0
  obtain ⟨T, _, hp⟩ := hd0
  obtain ⟨ha, hb⟩ := parse_edges hp hf
  simp only [loadFile, Res.bind_eq_ok] at h
  obtain ⟨⟨w, m'⟩, h1, w', h2, h3⟩ := h
  simp only [Res.ok.injEq, Prod.mk.injEq] at h3
  obtain ⟨rfl, rfl⟩ := h3
  have hw : w = w' := by
    simp only [forceObject] at h2
    split at h2
    · cases h2; rfl
    · split at h2 <;> cases h2
  subst hw
  rw [parseText_around hd (by rw [hroot]) (hroot ▸ hst) ha hb] at h1
  rw [hroot, staticL_append, staticL] at hst
  simp only [Bool.and_eq_true] at hst
  obtain ⟨ls, x1, _, _, x2⟩ := C56_include_is_layer env _ htame.plain 0 none cs n m' w hst.2.1 h1
  exact ⟨ls, x1, x2⟩

/-- Two files, one of which includes the other. -/
def incFiles : FS := fun f =>
  if f = ch "x.conf" then some (ch "a=7, c=8") else if f = ch "m.conf" then some (ch "c=1\ninclude \"x.conf\"\na=2") else none

example : PlainFiles exEnv incFiles := by
  have h1 : ∀ fl root, DocParser.parseDocument exEnv fl (ch "a=7, c=8") = .ok root → staticL true root = true := by
    intro fl root h
    cases fl <;> cases h <;> rfl
  have h2 : ∀ fl root, DocParser.parseDocument exEnv fl (ch "c=1\ninclude \"x.conf\"\na=2") = .ok root →
      staticL true root = true := by
    intro fl root h
    cases fl <;> cases h <;> rfl
  have h3 : ∀ fl root, DocParser.parseDocument exEnv fl [] = .ok root → staticL true root = true := by
    intro fl root h
    cases fl <;> cases h <;> rfl
  intro f fl root h
  unfold Files.contents incFiles at h
  split at h
  · exact h1 fl root h
  · split at h
    · exact h2 fl root h
    · exact h3 fl root h

example : (loadFile exEnv incFiles (fun x => (Resolve.configResolve exEnv 1 x Resolve.Options.default).bind fun o => nonNull o)
    3 (ch "m.conf") .conf 0 >>= fun r => .ok ([[ch "a"], [ch "c"]].map (Spec.at? r.1)))
    = .ok [some (.scalar (.int 2 (ch "2"))), some (.scalar (.int 8 (ch "8")))] := by decide +kernel

end EditRead
end Hocon
