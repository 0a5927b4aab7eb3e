import Verif.Lemmas.MoveInside
import Verif.Props.IncludeFilesProps

/-!
# Moving settings to a file of their own: C97
-/

set_option autoImplicit false

namespace Hocon
namespace EditRead
open Value ConfigParser Files Spec
open PathParser (Syntax)
open Tokenizer (exEnv)
open Node (unlineList)

/-- The HOCON text `s` is a document whose root object has the children `cs`, up to the line numbers of its tokens. With
`t = false` it has no include, in any case no substitution and no `+=`. -/
def Body (t : Bool) (env : Env) (s : Str) (cs : List Node) : Prop :=
  ∃ root a b, DocParser.parseDocument env .conf s = .ok root ∧ unlineList root = unlineList (a ++ .object cs :: b) ∧
    staticL t root = true ∧ (∀ c ∈ a, c.isComplex = false) ∧ ∀ c ∈ b, c.isComplex = false

theorem Body.static {t : Bool} {env : Env} {s : Str} {cs : List Node} (h : Body t env s cs) : staticL t cs = true := by
  obtain ⟨root, a, b, _, h2, h3, _⟩ := h
  rw [← staticL_unline, h2, staticL_unline, staticL_append, staticL] at h3
  simp only [Bool.and_eq_true] at h3
  exact h3.2.1

theorem Body.text {t : Bool} {env : Env} {s : Str} {cs : List Node} (h : Body t env s cs) (inc : Includer) (n : Nat) :
    parseText env inc .conf s n = (parseFields env inc false 0 none cs [] n >>= fun r => .ok (newObj r.1, r.2)) := by
  obtain ⟨root, a, b, h1, h2, h3, h4, h5⟩ := h
  rw [parseText_around (t := t) h1 h2 (by rw [← staticL_unline, ← h2, staticL_unline]; exact h3) h4 h5, parseValue]

theorem plainF_nil : PlainF [] := ⟨by simp [keysOf], by simp⟩

/-- The include statement puts the fields of the file over those before it. -/
theorem include_layer {env : Env} {fs : FS} {k : Nat} {ro : Resolve.Options} {fuel : Nat} {res : Value → Res Value}
    (hres : res = fun x => (Resolve.configResolve env (k + 1) x ro).bind fun o => nonNull o) {dir name : Str} {ds B : List Node}
    {kind : IncludeKind} (hk : kind = .heuristic ∨ kind = .file) {n : Nat} (hn : includeName env ds n = .ok (name, n))
    (hx : syntaxFromExtension name = .conf) (hx' : syntaxFromExtension (relativeTo dir name) = .conf)
    {t : Bool} (hi : t = true → IncPlain (includer (loadFile env fs res fuel) res (dirOf (relativeTo dir name))))
    (hg : Body t env (contents fs (relativeTo dir name)) B) (arr : Nat) (hs : Fields) :
    parseInclude env (includer (loadFile env fs res (fuel + 1)) res dir) arr kind ds hs n =
      (parseFields env (includer (loadFile env fs res fuel) res (dirOf (relativeTo dir name))) false 0 none B [] n >>= fun r =>
        putAll hs r.1 >>= fun gs => .ok (gs, r.2)) := by
  have hfile : Files.includeName (loadFile env fs res (fuel + 1)) dir name n =
      (parseFields env (includer (loadFile env fs res fuel) res (dirOf (relativeTo dir name))) false 0 none B [] n >>= fun r =>
        .ok (newObj r.1, r.2)) := by
    rw [Files.includeName, if_pos (by rw [hx]; simp), hx']
    change loadFile env fs res (fuel + 1) _ .conf n = _
    rw [loadFile, hg.text]
    cases parseFields env (includer (loadFile env fs res fuel) res (dirOf (relativeTo dir name))) false 0 none B [] n <;> rfl
  have hpl : ∀ r, parseFields env (includer (loadFile env fs res fuel) res (dirOf (relativeTo dir name))) false 0 none B [] n = .ok r →
      PlainF r.1 := fun r hr => parseFields_plain (b := t) env _ hi false 0 none B [] r.1 n r.2 hg.static plainF_nil hr
  have hcall : callIncluder env (includer (loadFile env fs res (fuel + 1)) res dir) kind ds n =
      (parseFields env (includer (loadFile env fs res fuel) res (dirOf (relativeTo dir name))) false 0 none B [] n >>= fun r =>
        .ok (newObj r.1, r.2)) := by
    rcases hk with rfl | rfl
    · rw [callIncluder, hn, Res.ok_bind]
      exact hfile
    · rw [callIncluder, hn, Res.ok_bind]
      change (Files.includeName _ dir name n >>= _) = _
      rw [hfile]
      cases hr : parseFields env (includer (loadFile env fs res fuel) res (dirOf (relativeTo dir name))) false 0 none B [] n with
      | ok r =>
        have hp := newObj_plain (hpl r hr)
        simp only [Res.ok_bind, hres, (Resolve.C24_resolved_noop env k (newObj r.1) (newObj r.1) ro rfl hp.res).2]
        rfl
      | _ => rfl
  rw [parseInclude, hcall]
  cases hr : parseFields env (includer (loadFile env fs res fuel) res (dirOf (relativeTo dir name))) false 0 none B [] n with
  | ok r =>
    have hp := newObj_plain (hpl r hr)
    simp only [Res.ok_bind, putIncluded, hp.res, Bool.not_true, Bool.and_false]
    rfl
  | _ => rfl

/-- Equal fields: the same value at every path. -/
theorem at?_newObj {x y : Fields} (h : ∀ k, findKey x k = findKey y k) : ∀ q, q ≠ [] → at? (newObj x) q = at? (newObj y) q
  | [], hq => absurd rfl hq
  | k :: q, _ => by
    have e : child (newObj x) k = child (newObj y) k := by
      simp only [newObj, child_eq_findKey, h k]
    rw [at?, at?, e]

/-- **C97.** Settings moved to a file of their own. Let the HOCON text `s` have the fields `A`, `B`, `C` in this order, and
let the text `s'` have an include of a `.conf` file in place of `B`, the fields of the file being `B`. Read with the default
includer and `config::resolve` in a file system without substitutions, the one text can be read exactly if the other can, and
then every path has the same value. -/
theorem C97_moved_partial (env : Env) (fs : FS) (hfs : PlainFiles env fs) (k : Nat) (ro : Resolve.Options) (fuel : Nat)
    {res : Value → Res Value} (hres : res = fun x => (Resolve.configResolve env (k + 1) x ro).bind fun o => nonNull o)
    (dir name s s' : Str) {A B C ds : List Node} {kind : IncludeKind} (hs : Body true env s (A ++ (B ++ C)))
    (hs' : Body true env s' (A ++ .incl ds kind :: C)) (hg : Body false env (contents fs (relativeTo dir name)) B)
    (hk : kind = .heuristic ∨ kind = .file) (n : Nat) (hn : includeName env ds n = .ok (name, n))
    (hx : syntaxFromExtension name = .conf) (hx' : syntaxFromExtension (relativeTo dir name) = .conf) :
    let inc := includer (loadFile env fs res (fuel + 1)) res dir
    (∀ v m, parseText env inc .conf s n = .ok (v, m) → ∃ v', parseText env inc .conf s' n = .ok (v', m) ∧
      ∀ q, q ≠ [] → at? v' q = at? v q) ∧
    (∀ v' m, parseText env inc .conf s' n = .ok (v', m) → ∃ v, parseText env inc .conf s n = .ok (v, m) ∧
      ∀ q, q ≠ [] → at? v' q = at? v q) := by
  intro inc
  have hidle : Idle res := hres ▸ resolve_idle env (k + 1) ro
  have htame : Tame inc := files_tame hfs hidle (fuel + 1) dir
  have hst := hs.static
  simp only [staticL_append, Bool.and_eq_true] at hst
  obtain ⟨sa, sb, sc⟩ := hst
  have hlay : ∀ {ns : List Node}, staticL true ns = true → ∀ {fs x : Fields} {n m : Nat}, PlainF fs →
      parseFields env inc false 0 none ns fs n = .ok (x, m) → m = n ∧ ∃ gs, Layer env inc 0 none ns n n gs :=
    fun h _ _ _ _ hf h' => layer env inc (fun _ => htame) 0 none _ h _ _ _ _ hf h'
  have hB : ∀ g, parseFields env inc false 0 none B g n =
      parseFields env (includer (loadFile env fs res fuel) res (dirOf (relativeTo dir name))) false 0 none B g n :=
    fun g => parseFields_inc env _ _ false B hg.static 0 none g n
  have hinc : ∀ g, parseFields env inc false 0 none (.incl ds kind :: C) g n =
      (parseFields env inc false 0 none B [] n >>= fun r => putAll g r.1 >>= fun x => .ok (x, r.2)) >>= fun r =>
        parseFields env inc false 0 none C r.1 r.2 := fun g => by
    simp only [parseFields, Bool.false_eq_true, if_false]
    rw [include_layer hres hk hn hx hx' (by simp) hg, hB]
  -- once the three parts can be read, both texts can
  have main : ∀ {la lb lc : Fields}, Layer env inc 0 none A n n la → Layer env inc 0 none B n n lb →
      Layer env inc 0 none C n n lc → ∃ v v', parseText env inc .conf s n = .ok (v, n) ∧
        parseText env inc .conf s' n = .ok (v', n) ∧ ∀ q, q ≠ [] → at? v' q = at? v q := by
    intro la lb lc ha hb hc
    obtain ⟨xa, a1, a2, _⟩ := ha.2 [] plainF_nil
    obtain ⟨xb, b1, b2, b3⟩ := hb.2 xa a2
    obtain ⟨xc, c1, _, c3⟩ := hc.2 xb b2
    obtain ⟨yb, d1, d2, d3⟩ := hb.2 [] plainF_nil
    obtain ⟨yi, e1⟩ := putAll_total yb a2 d2
    obtain ⟨e2, e3⟩ := putAll_over a2 d2 e1
    obtain ⟨yc, f1, _, f3⟩ := hc.2 yi e2
    refine ⟨newObj xc, newObj yc, ?_, ?_, at?_newObj fun key => ?_⟩
    · rw [hs.text, parseFields_append, a1, Res.ok_bind, parseFields_append, b1, Res.ok_bind, c1]
      rfl
    · rw [hs'.text, parseFields_append, a1, Res.ok_bind, hinc, d1, Res.ok_bind, e1, Res.ok_bind, Res.ok_bind, f1]
      rfl
    · rw [f3, c3, e3, b3, d3, findKey_nil, over_none]
  constructor
  · intro v m h
    have h0 := h
    rw [hs.text, parseFields_append] at h
    simp only [Res.bind_eq_ok] at h
    obtain ⟨_, ⟨⟨xa, na⟩, h1, h2⟩, _⟩ := h
    obtain ⟨rfl, la, ha⟩ := hlay sa plainF_nil h1
    have hpa : PlainF xa := parseFields_plain (b := true) env inc (fun _ => htame.plain) false 0 none A [] xa _ _ sa plainF_nil h1
    rw [parseFields_append, Res.bind_eq_ok] at h2
    obtain ⟨⟨xb, nb⟩, h3, h4⟩ := h2
    obtain ⟨e, lb, hb⟩ := hlay sb hpa h3
    simp only at e
    subst e
    have hpb : PlainF xb := parseFields_plain (b := true) env inc (fun _ => htame.plain) false 0 none B xa xb _ _ sb hpa h3
    obtain ⟨e, lc, hc⟩ := hlay sc hpb h4
    obtain ⟨w, w', g1, g2, g3⟩ := main ha hb hc
    rw [h0] at g1
    cases g1
    exact ⟨w', g2, g3⟩
  · intro v m h
    have h0 := h
    rw [hs'.text, parseFields_append] at h
    simp only [Res.bind_eq_ok] at h
    obtain ⟨_, ⟨⟨xa, na⟩, h1, h2⟩, _⟩ := h
    obtain ⟨rfl, la, ha⟩ := hlay sa plainF_nil h1
    have hpa : PlainF xa := parseFields_plain (b := true) env inc (fun _ => htame.plain) false 0 none A [] xa _ _ sa plainF_nil h1
    rw [hinc] at h2
    simp only [Res.bind_eq_ok] at h2
    obtain ⟨_, ⟨⟨xb, nb⟩, h3, xi, h5, h6⟩, h4⟩ := h2
    obtain ⟨e, lb, hb⟩ := hlay sb plainF_nil h3
    subst e
    cases h6
    have hpb : PlainF xb := parseFields_plain (b := true) env inc (fun _ => htame.plain) false 0 none B [] xb _ _ sb plainF_nil h3
    obtain ⟨e, lc, hc⟩ := hlay sc (putAll_over hpa hpb h5).1 h4
    obtain ⟨w, w', g1, g2, g3⟩ := main ha hb hc
    rw [h0] at g2
    cases g2
    exact ⟨w, g1, g3⟩

/-- **C97 (files).** The same for two files in one directory. -/
theorem C97_files_partial (env : Env) (fs : FS) (hfs : PlainFiles env fs) (k : Nat) (ro : Resolve.Options) (fuel : Nat)
    {res : Value → Res Value} (hres : res = fun x => (Resolve.configResolve env (k + 1) x ro).bind fun o => nonNull o)
    (f f' name : Str) (hdir : dirOf f' = dirOf f) {A B C ds : List Node} {kind : IncludeKind}
    (hs : Body true env (contents fs f) (A ++ (B ++ C))) (hs' : Body true env (contents fs f') (A ++ .incl ds kind :: C))
    (hg : Body false env (contents fs (relativeTo (dirOf f) name)) B)
    (hk : kind = .heuristic ∨ kind = .file) (n : Nat) (hn : includeName env ds n = .ok (name, n))
    (hx : syntaxFromExtension name = .conf) (hx' : syntaxFromExtension (relativeTo (dirOf f) name) = .conf) :
    (∀ v m, loadFile env fs res (fuel + 2) f .conf n = .ok (v, m) →
      ∃ v', loadFile env fs res (fuel + 2) f' .conf n = .ok (v', m) ∧ ∀ q, q ≠ [] → at? v' q = at? v q) ∧
    (∀ v' m, loadFile env fs res (fuel + 2) f' .conf n = .ok (v', m) →
      ∃ v, loadFile env fs res (fuel + 2) f .conf n = .ok (v, m) ∧ ∀ q, q ≠ [] → at? v' q = at? v q) := by
  obtain ⟨h1, h2⟩ := C97_moved_partial env fs hfs k ro fuel hres (dirOf f) name _ _ hs hs' hg hk n hn hx hx'
  have hload : ∀ {t : Bool} {g : Str} {cs : List Node}, Body t env (contents fs g) cs → loadFile env fs res (fuel + 2) g .conf n =
      parseText env (includer (loadFile env fs res (fuel + 1)) res (dirOf g)) .conf (contents fs g) n := by
    intro t g cs hb
    rw [loadFile, hb.text]
    cases parseFields env (includer (loadFile env fs res (fuel + 1)) res (dirOf g)) false 0 none cs [] n <;> rfl
  rw [hload hs, hload hs', hdir]
  exact ⟨h1, h2⟩

/-- **C97 (with includes).** The moved settings may have includes, if the file they are moved to is in the directory of the
text they come from. The new text needs one more level of nested includes. -/
theorem C97_nested_partial (env : Env) (fs : FS) (hfs : PlainFiles env fs) (k : Nat) (ro : Resolve.Options) (fuel : Nat)
    {res : Value → Res Value} (hres : res = fun x => (Resolve.configResolve env (k + 1) x ro).bind fun o => nonNull o)
    (dir name s s' : Str) {A B C ds : List Node} {kind : IncludeKind} (hs : Body true env s (A ++ (B ++ C)))
    (hs' : Body true env s' (A ++ .incl ds kind :: C)) (hg : Body true env (contents fs (relativeTo dir name)) B)
    (hdir : dirOf (relativeTo dir name) = dir) -- `dirOf_relative`
    (hk : kind = .heuristic ∨ kind = .file) (n : Nat) (hn : includeName env ds n = .ok (name, n))
    (hx : syntaxFromExtension name = .conf) (hx' : syntaxFromExtension (relativeTo dir name) = .conf) :
    let inc := fun fuel => includer (loadFile env fs res fuel) res dir
    (∀ v m, parseText env (inc fuel) .conf s n = .ok (v, m) → ∃ v', parseText env (inc (fuel + 1)) .conf s' n = .ok (v', m) ∧
      ∀ q, q ≠ [] → at? v' q = at? v q) ∧
    (∀ v' m, parseText env (inc (fuel + 1)) .conf s' n = .ok (v', m) → ∃ v, parseText env (inc (fuel + 1)) .conf s n = .ok (v, m) ∧
      ∀ q, q ≠ [] → at? v' q = at? v q) := by
  intro inc
  have hidle : Idle res := hres ▸ resolve_idle env (k + 1) ro
  have htame : ∀ i, Tame (inc i) := fun i => files_tame hfs hidle i dir
  have hle : (inc fuel).Le (inc (fuel + 1)) := includer_le (fun f s n => loadFile_le env fs res fuel f s n) res dir
  have up : ∀ {ns : List Node} {g : Fields} {x : Fields × Nat}, parseFields env (inc fuel) false 0 none ns g n = .ok x →
      parseFields env (inc (fuel + 1)) false 0 none ns g n = .ok x := by
    intro ns g x h
    rcases parseFields_le hle false 0 none ns g n with e | e
    · rw [h] at e; cases e
    · rw [← e, h]
  have hst := hs.static
  simp only [staticL_append, Bool.and_eq_true] at hst
  obtain ⟨sa, sb, sc⟩ := hst
  have hlay : ∀ i {ns : List Node}, staticL true ns = true → ∀ {fs x : Fields} {n m : Nat}, PlainF fs →
      parseFields env (inc i) false 0 none ns fs n = .ok (x, m) → m = n ∧ PlainF x ∧ ∃ gs, Layer env (inc i) 0 none ns n n gs :=
    fun i _ h _ _ _ _ hf h' =>
      have e := layer env (inc i) (fun _ => htame i) 0 none _ h _ _ _ _ hf h'
      ⟨e.1, parseFields_plain (b := true) env _ (fun _ => (htame i).plain) false 0 none _ _ _ _ _ h hf h', e.2⟩
  have hinc : ∀ g, parseFields env (inc (fuel + 1)) false 0 none (.incl ds kind :: C) g n =
      (parseFields env (inc fuel) false 0 none B [] n >>= fun r => putAll g r.1 >>= fun x => .ok (x, r.2)) >>= fun r =>
        parseFields env (inc (fuel + 1)) false 0 none C r.1 r.2 := fun g => by
    have hi : IncPlain (includer (loadFile env fs res fuel) res (dirOf (relativeTo dir name))) := by
      rw [hdir]; exact (htame fuel).plain
    simp only [parseFields, Bool.false_eq_true, if_false]
    rw [include_layer hres hk hn hx hx' (fun _ => hi) hg, hdir]
  -- once the three parts can be read, both texts can
  have main : ∀ {la lb lc yb : Fields} {m : Nat}, Layer env (inc (fuel + 1)) 0 none A n n la →
      Layer env (inc (fuel + 1)) 0 none B n n lb → Layer env (inc (fuel + 1)) 0 none C n n lc →
      parseFields env (inc fuel) false 0 none B [] n = .ok (yb, m) →
      ∃ v v', parseText env (inc (fuel + 1)) .conf s n = .ok (v, n) ∧
        parseText env (inc (fuel + 1)) .conf s' n = .ok (v', n) ∧ ∀ q, q ≠ [] → at? v' q = at? v q := by
    intro la lb lc yb m ha hb hc d1
    obtain ⟨xa, a1, a2, _⟩ := ha.2 [] plainF_nil
    obtain ⟨xb, b1, b2, b3⟩ := hb.2 xa a2
    obtain ⟨xc, c1, _, c3⟩ := hc.2 xb b2
    obtain ⟨yb', d1', d2, d3⟩ := hb.2 [] plainF_nil
    rw [up d1] at d1'
    cases d1'
    obtain ⟨yi, e1⟩ := putAll_total yb a2 d2
    obtain ⟨e2, e3⟩ := putAll_over a2 d2 e1
    obtain ⟨yc, f1, _, f3⟩ := hc.2 yi e2
    refine ⟨newObj xc, newObj yc, ?_, ?_, at?_newObj fun key => ?_⟩
    · rw [hs.text, parseFields_append, a1, Res.ok_bind, parseFields_append, b1, Res.ok_bind, c1]
      rfl
    · rw [hs'.text, parseFields_append, a1, Res.ok_bind, hinc, d1, Res.ok_bind, e1, Res.ok_bind, Res.ok_bind, f1]
      rfl
    · rw [f3, c3, e3, b3, d3, findKey_nil, over_none]
  constructor
  · intro v m h
    have h0 : parseText env (inc (fuel + 1)) .conf s n = .ok (v, m) := by
      rcases parseText_le hle .conf s n with e | e
      · rw [h] at e; cases e
      · rw [← e, h]
    rw [hs.text, parseFields_append] at h
    simp only [Res.bind_eq_ok] at h
    obtain ⟨_, ⟨⟨xa, na⟩, h1, h2⟩, _⟩ := h
    obtain ⟨rfl, hpa, _⟩ := hlay fuel sa plainF_nil h1
    rw [parseFields_append, Res.bind_eq_ok] at h2
    obtain ⟨⟨xb, nb⟩, h3, h4⟩ := h2
    obtain ⟨e, hpb, lb, hb⟩ := hlay fuel sb hpa h3
    simp only at e h4
    subst e
    obtain ⟨yb, d1, _⟩ := hb.2 [] plainF_nil
    obtain ⟨_, _, la, ha'⟩ := hlay (fuel + 1) sa plainF_nil (up h1)
    obtain ⟨_, _, lb', hb'⟩ := hlay (fuel + 1) sb hpa (up h3)
    obtain ⟨_, _, lc', hc'⟩ := hlay (fuel + 1) sc hpb (up h4)
    obtain ⟨w, w', g1, g2, g3⟩ := main ha' hb' hc' d1
    rw [h0] at g1
    cases g1
    exact ⟨w', g2, g3⟩
  · intro v m h
    have h0 := h
    rw [hs'.text, parseFields_append] at h
    simp only [Res.bind_eq_ok] at h
    obtain ⟨_, ⟨⟨xa, na⟩, h1, h2⟩, _⟩ := h
    obtain ⟨rfl, hpa, la, ha⟩ := hlay (fuel + 1) sa plainF_nil h1
    rw [hinc] at h2
    simp only [Res.bind_eq_ok] at h2
    obtain ⟨_, ⟨⟨xb, nb⟩, h3, xi, h5, h6⟩, h4⟩ := h2
    obtain ⟨e, hpb, lb, hb⟩ := hlay (fuel + 1) sb plainF_nil (up h3)
    subst e
    cases h6
    obtain ⟨_, _, lc, hc⟩ := hlay (fuel + 1) sc (putAll_over hpa hpb h5).1 h4
    obtain ⟨w, w', g1, g2, g3⟩ := main ha hb hc h3
    rw [h0] at g2
    cases g2
    exact ⟨w, g1, g3⟩

/-- A file that is named without a directory is in the directory of the file that includes it. -/
theorem dirOf_relative (f name : Str) (h : '/' ∉ name) : dirOf (relativeTo (dirOf f) name) = dirOf f := by
  have e : relativeTo (dirOf f) name = dirOf f ++ name := by
    unfold relativeTo
    split
    · simp at h
    · rfl
  rw [e, dirOf, dirOf, List.reverse_append, List.reverse_reverse]
  congr 1
  rw [List.dropWhile_append_of_pos (by
    intro c hc
    have : c ≠ '/' := by rintro rfl; exact h (List.mem_reverse.1 hc)
    simpa using this)]
  induction f.reverse with
  | nil => rfl
  | cons c cs ih =>
    by_cases hc : c = '/'
    · subst hc; simp
    · simpa [List.dropWhile_cons, hc] using ih

example : dirOf (relativeTo (ch "d/") (ch "x.conf")) = ch "d/" := by decide

/-- **C97 (sections).** The settings may be moved from a section of any depth: then every path shows the same, an object or
the same other value. -/
theorem C97_section_partial (env : Env) (fs : FS) (hfs : PlainFiles env fs) (k : Nat) (ro : Resolve.Options) (fuel : Nat)
    {res : Value → Res Value} (hres : res = fun x => (Resolve.configResolve env (k + 1) x ro).bind fun o => nonNull o)
    (dir name s s' : Str) {A B C ds cs cs' : List Node} {kind : IncludeKind} (hs : Body true env s cs)
    (hs' : Body true env s' cs') (hin : Inside (A ++ (B ++ C)) (A ++ .incl ds kind :: C) cs cs')
    (hg : Body false env (contents fs (relativeTo dir name)) B)
    (hk : kind = .heuristic ∨ kind = .file) (n : Nat) (hn : includeName env ds n = .ok (name, n))
    (hx : syntaxFromExtension name = .conf) (hx' : syntaxFromExtension (relativeTo dir name) = .conf) :
    let inc := includer (loadFile env fs res (fuel + 1)) res dir
    (∀ v m, parseText env inc .conf s n = .ok (v, m) → ∃ v', parseText env inc .conf s' n = .ok (v', m) ∧
      ∀ q, look v' q = look v q) ∧
    (∀ v' m, parseText env inc .conf s' n = .ok (v', m) → ∃ v, parseText env inc .conf s n = .ok (v, m) ∧
      ∀ q, look v' q = look v q) := by
  intro inc
  have hidle : Idle res := hres ▸ resolve_idle env (k + 1) ro
  have htame : Tame inc := files_tame hfs hidle (fuel + 1) dir
  have hst : ∀ {cs : List Node}, staticL true cs = true → ∀ {Y Y' cs'}, Inside Y Y' cs cs' → staticL true Y = true := by
    intro cs h Y Y' cs' hin
    induction hin with
    | here => exact h
    | deep _ _ ih =>
      simp only [staticL_append, staticL, static, Bool.and_eq_true] at h
      exact ih h.2.1.2.2.1
  have sX := hst hs.static hin
  simp only [staticL_append, Bool.and_eq_true] at sX
  obtain ⟨sa, sb, sc⟩ := sX
  have hlay : ∀ {outer : Option Path} {ns : List Node}, staticL true ns = true → ∀ {fs x : Fields} {n m : Nat}, PlainF fs →
      parseFields env inc false 0 outer ns fs n = .ok (x, m) → m = n ∧ PlainF x ∧ ∃ gs, Layer env inc 0 outer ns n n gs :=
    fun h _ _ _ _ hf h' =>
      have e := layer env inc (fun _ => htame) 0 _ _ h _ _ _ _ hf h'
      ⟨e.1, parseFields_plain (b := true) env _ (fun _ => htame.plain) false 0 _ _ _ _ _ _ h hf h', e.2⟩
  -- the moved settings in the file and in the section
  have hB : ∀ {g x outer outer' m}, parseFields env inc false 0 outer B g n = .ok (x, m) →
      parseFields env inc false 0 outer' B g n = .ok (x, n) :=
    fun h => parseFields_free env inc false 0 0 _ _ B _ _ n n _ hg.static h
  have hinc : ∀ g outer, parseFields env inc false 0 outer (.incl ds kind :: C) g n =
      (parseFields env inc false 0 none B [] n >>= fun r => putAll g r.1 >>= fun x => .ok (x, r.2)) >>= fun r =>
        parseFields env inc false 0 outer C r.1 r.2 := fun g outer => by
    simp only [parseFields, Bool.false_eq_true, if_false]
    rw [include_layer hres hk hn hx hx' (by simp) hg, parseFields_inc env _ inc false B hg.static 0 none [] n]
  have main : ∀ {outer : Option Path} {la lb lc : Fields}, Layer env inc 0 outer A n n la → Layer env inc 0 outer B n n lb →
      Layer env inc 0 outer C n n lc → ∃ x x', parseFields env inc false 0 outer (A ++ (B ++ C)) [] n = .ok (x, n) ∧
        parseFields env inc false 0 outer (A ++ .incl ds kind :: C) [] n = .ok (x', n) ∧ ∀ key, findKey x' key = findKey x key := by
    intro outer la lb lc ha hb hc
    obtain ⟨xa, a1, a2, _⟩ := ha.2 [] plainF_nil
    obtain ⟨xb, b1, b2, b3⟩ := hb.2 xa a2
    obtain ⟨xc, c1, _, c3⟩ := hc.2 xb b2
    obtain ⟨yb, d1, d2, d3⟩ := hb.2 [] plainF_nil
    obtain ⟨yi, e1⟩ := putAll_total yb a2 d2
    obtain ⟨e2, e3⟩ := putAll_over a2 d2 e1
    obtain ⟨yc, f1, _, f3⟩ := hc.2 yi e2
    refine ⟨xc, yc, ?_, ?_, fun key => ?_⟩
    · rw [parseFields_append, a1, Res.ok_bind, parseFields_append, b1, Res.ok_bind, c1]
    · rw [parseFields_append, a1, Res.ok_bind, hinc, hB d1, Res.ok_bind, e1, Res.ok_bind, Res.ok_bind, f1]
    · rw [f3, c3, e3, b3, d3, findKey_nil, over_none]
  have there : ReadsAs env inc n (A ++ (B ++ C)) (A ++ .incl ds kind :: C) := by
    intro outer x m h
    have h0 := h
    rw [parseFields_append, Res.bind_eq_ok] at h
    obtain ⟨⟨xa, na⟩, h1, h2⟩ := h
    obtain ⟨rfl, hpa, la, ha⟩ := hlay sa plainF_nil h1
    rw [parseFields_append, Res.bind_eq_ok] at h2
    obtain ⟨⟨xb, nb⟩, h3, h4⟩ := h2
    obtain ⟨e, hpb, lb, hb⟩ := hlay sb hpa h3
    simp only at e h4
    subst e
    obtain ⟨e, _, lc, hc⟩ := hlay sc hpb h4
    obtain ⟨w, w', g1, g2, g3⟩ := main ha hb hc
    rw [h0] at g1
    cases g1
    exact ⟨w', g2, fun key => g3 key ▸ Eqv.refl _⟩
  have back : ReadsAs env inc n (A ++ .incl ds kind :: C) (A ++ (B ++ C)) := by
    intro outer x m h
    have h0 := h
    rw [parseFields_append, Res.bind_eq_ok] at h
    obtain ⟨⟨xa, na⟩, h1, h2⟩ := h
    obtain ⟨rfl, hpa, la, ha⟩ := hlay sa plainF_nil h1
    simp only at h2
    rw [hinc] at h2
    simp only [Res.bind_eq_ok] at h2
    obtain ⟨_, ⟨⟨xb, nb⟩, h3, xi, h5, h6⟩, h4⟩ := h2
    obtain ⟨e, hpb, lb, hb⟩ := hlay sb plainF_nil (hB (outer' := outer) h3)
    have e3 := hB (outer' := outer) h3
    rw [hB (outer' := none) h3] at h3
    cases h3
    cases h6
    obtain ⟨_, _, lc, hc⟩ := hlay sc (putAll_over hpa hpb h5).1 h4
    obtain ⟨w, w', g1, g2, g3⟩ := main ha hb hc
    rw [h0] at g2
    cases g2
    exact ⟨w, g1, fun key => (g3 key).symm ▸ Eqv.refl _⟩
  have fin : ∀ {x y : Fields}, EqvF x y → ∀ q, look (newObj x) q = look (newObj y) q := fun h q => (h.obj q).1
  constructor
  · intro v m h
    rw [hs.text, Res.bind_eq_ok] at h
    obtain ⟨⟨x, m'⟩, h1, h2⟩ := h
    cases h2
    obtain ⟨x', g1, g2⟩ := there.inside htame hin hs.static hs'.static none x m' h1
    exact ⟨newObj x', by rw [hs'.text, g1]; rfl, fun q => (fin g2 q).symm⟩
  · intro v m h
    rw [hs'.text, Res.bind_eq_ok] at h
    obtain ⟨⟨x, m'⟩, h1, h2⟩ := h
    cases h2
    obtain ⟨x', g1, g2⟩ := back.inside htame hin.symm hs'.static hs.static none x m' h1
    exact ⟨newObj x', by rw [hs.text, g1]; rfl, fun q => fin g2 q⟩

/-! A case of C97: `a=7` moved to the file `x.conf`. -/

/-- The children of the root of a document. -/
def docChildren (s : Str) : List Node :=
  match DocParser.parseDocument exEnv .conf s with
  | .ok [.object cs] => cs
  | _ => []

/-- The file of the setting that is moved, and the documents before and after. -/
def moveFiles : FS := fun f =>
  if f = ch "d/x.conf" then some (ch "a.b=7") else if f = ch "d/m.conf" then some (ch "a.c=1\na.b=7\na.c=2")
  else if f = ch "d/n.conf" then some (ch "a.c=1\ninclude \"x.conf\"\na.c=2") else none

example : ∃ A B C ds, Body true exEnv (contents moveFiles (ch "d/m.conf")) (A ++ (B ++ C)) ∧
    Body true exEnv (contents moveFiles (ch "d/n.conf")) (A ++ .incl ds .heuristic :: C) ∧
    Body false exEnv (contents moveFiles (relativeTo (dirOf (ch "d/m.conf")) (ch "x.conf"))) B ∧
    includeName exEnv ds 0 = .ok (ch "x.conf", 0) ∧ dirOf (ch "d/n.conf") = dirOf (ch "d/m.conf") := by
  refine ⟨(docChildren (ch "a.c=1\na.b=7\na.c=2")).take 2, docChildren (ch "a.b=7"),
    (docChildren (ch "a.c=1\na.b=7\na.c=2")).drop 3, ?_⟩
  obtain ⟨ds, hds⟩ : ∃ ds, (docChildren (ch "a.c=1\ninclude \"x.conf\"\na.c=2"))[2]? = some (.incl ds .heuristic) := ⟨_, rfl⟩
  cases hds
  exact ⟨_, ⟨_, [], [], rfl, rfl, rfl, by simp, by simp⟩, ⟨_, [], [], rfl, rfl, rfl, by simp, by simp⟩,
    ⟨_, [], [], rfl, rfl, rfl, by simp, by simp⟩, rfl, rfl⟩

example : PlainFiles exEnv moveFiles := by
  have h : ∀ s ∈ [ch "a.b=7", ch "a.c=1\na.b=7\na.c=2", ch "a.c=1\ninclude \"x.conf\"\na.c=2", []], ∀ fl root,
      DocParser.parseDocument exEnv fl s = .ok root → staticL true root = true := by
    intro s hs fl root h
    simp only [List.mem_cons, List.not_mem_nil, or_false] at hs
    rcases hs with rfl | rfl | rfl | rfl <;> cases fl <;> cases h <;> rfl
  intro f fl root hd
  refine h _ ?_ fl root hd
  unfold Files.contents moveFiles
  split
  · simp
  · split
    · simp
    · split <;> simp

example : (loadFile exEnv moveFiles (fun x => (Resolve.configResolve exEnv 1 x Resolve.Options.default).bind fun o => nonNull o)
    2 (ch "d/n.conf") .conf 0 >>= fun r => .ok ([[ch "a", ch "b"], [ch "a", ch "c"]].map (Spec.at? r.1)))
    = .ok [some (.scalar (.int 7 (ch "7"))), some (.scalar (.int 2 (ch "2")))] := by decide +kernel

/-- The field of a document with one setting before its object, and the children of the object. -/
def docSection (s : Str) : List Node × List Node :=
  match docChildren s with
  | [.field ds] => (ds.dropLast, match ds.getLast? with | some (.object cs) => cs | _ => [])
  | _ => ([], [])

/-- A case of `C97_section_partial`: `b=7` moved out of the section `s.t`. -/
example : ∃ A B C ds cs cs', Body true exEnv (ch "s.t {a=1, b=7}") cs ∧ Body true exEnv (ch "s.t {a=1, include \"x.conf\"}") cs' ∧
    Body false exEnv (ch "b=7") B ∧ Inside (A ++ (B ++ C)) (A ++ .incl ds .heuristic :: C) cs cs' ∧
    includeName exEnv ds 0 = .ok (ch "x.conf", 0) := by
  let o := docSection (ch "s.t {a=1, b=7}")
  obtain ⟨ds, hds⟩ : ∃ ds, (docSection (ch "s.t {a=1, include \"x.conf\"}")).2[4]? = some (.incl ds .heuristic) := ⟨_, rfl⟩
  cases hds
  exact ⟨o.2.take 4, docChildren (ch "b=7"), o.2.drop 5, _, _, _, ⟨_, [], [], rfl, rfl, rfl, by simp, by simp⟩,
    ⟨_, [], [], rfl, rfl, rfl, by simp, by simp⟩, ⟨_, [], [], rfl, rfl, rfl, by simp, by simp⟩,
    .deep (pre := []) (post := []) (d1 := o.1) (d2 := []) .here (by decide), rfl⟩

/-- **C97 fails without the extension.** A name without an extension is not taken relative to the directory of the including
file: with `include "x"` instead of `include "x.conf"` in `d/n.conf`, the file `d/x.conf` is not found and its settings are
missing. -/
theorem C97_extension_violated : ∃ (fs : FS) (v v' : Value),
    fs (ch "d/x.conf") = some (ch "a.b=7") ∧ fs (ch "d/n.conf") = some (ch "a.c=1\ninclude \"x\"\na.c=2") ∧
    loadFile exEnv fs .ok 5 (ch "d/n.conf") .conf 0 = .ok (v', 0) ∧ at? v' [ch "a", ch "b"] = none ∧
    loadFile exEnv (fun f => if f = ch "d/n.conf" then some (ch "a.c=1\na.b=7\na.c=2") else none) .ok 5 (ch "d/n.conf") .conf 0
      = .ok (v, 0) ∧ at? v [ch "a", ch "b"] = some (.scalar (.int 7 (ch "7"))) :=
  ⟨fun f => if f = ch "d/x.conf" then some (ch "a.b=7") else if f = ch "d/n.conf" then some (ch "a.c=1\ninclude \"x\"\na.c=2")
    else none, _, _, rfl, rfl, rfl, rfl, rfl, rfl⟩

end EditRead
end Hocon
