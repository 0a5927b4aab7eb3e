import Verif.Lemmas.SeenLemmas
import Verif.Props.ResolveOriginProps

/-!
# Properties: substitutions see the settings of all layers (C93)
-/

set_option autoImplicit false

namespace Hocon
namespace SeenProps

open Spec Notes ResolveA SeenLemmas StatusProps NamedProps

theorem merged_good {a b c : AVal} {x : Bool} (ha : Good a.erase) (hb : Good b.erase)
    (h : fallbackA a b = .ok (c, x)) : Good c.erase := by
  have := fallbackA_erase a b
  rw [h] at this
  exact C69_merged_partial _ _ _ ha hb this.symm

/-- Layers keep being exact about what is resolved. -/
theorem layered_good : (bs : List AVal) → (a c : AVal) → Good a.erase → (∀ b ∈ bs, Good b.erase) →
    layered a bs = .ok c → Good c.erase
  | [], a, c, ha, _, h => by
    simp only [layered, Res.ok.injEq] at h
    exact h ▸ ha
  | b :: bs, a, c, ha, hb, h => by
    simp only [layered, Res.bind_eq_ok] at h
    obtain ⟨⟨u, x⟩, h1, h2⟩ := h
    exact layered_good bs u c (merged_good ha (hb b (by simp)) h1) (fun y hy => hb y (by simp [hy])) h2

theorem layered_top {v : AVal} {p : Path} : (bs : List AVal) → (a c : AVal) → Good a.erase →
    (∀ b ∈ bs, Good b.erase) → SetAt a p v → (∀ b ∈ bs, Unset b p ∨ (Clear b p ∧ Final v)) →
    layered a bs = .ok c → SetAt c p v
  | [], a, c, _, _, hs, _, h => by
    simp only [layered, Res.ok.injEq] at h
    exact h ▸ hs
  | b :: bs, a, c, ha, hb, hs, hr, h => by
    simp only [layered, Res.bind_eq_ok] at h
    obtain ⟨⟨u, x⟩, h1, h2⟩ := h
    have hu : SetAt u p v := by
      rcases hr b (by simp) with hu | ⟨hc, hf⟩
      · exact set_above hs (Resolve.live_spec.2 (hb b (by simp))) hu h1
      · exact set_final hs (Resolve.live_spec.2 ha) (Resolve.live_spec.2 (hb b (by simp))) hf hc h1
    exact layered_top bs u c (merged_good ha (hb b (by simp)) h1) (fun y hy => hb y (by simp [hy])) hu
      (fun y hy => hr y (by simp [hy])) h2

/-- **C93 (settings).** What the layers set at a path stands there after `with_fallback`, with its origin: the
setting of the only layer that has one, or a final one of a layer above the others. -/
theorem C93_set (p : Path) (v : AVal) : (bs : List AVal) → (a c : AVal) → Good a.erase →
    (∀ b ∈ bs, Good b.erase) → SetIn (a :: bs) p v → layered a bs = .ok c → SetAt c p v
  | bs, a, c, ha, hb, .top hs hr, h => layered_top bs a c ha hb hs hr h
  | b :: bs, a, c, ha, hb, .under hu hs, h => by
    simp only [layered, Res.bind_eq_ok] at h
    obtain ⟨⟨u, x⟩, h1, h2⟩ := h
    have hl := Resolve.live_spec.2 (hb b (by simp))
    have hg := merged_good ha (hb b (by simp)) h1
    cases hs with
    | top hs hr => exact layered_top bs u c hg (fun y hy => hb y (by simp [hy])) (set_below hu hl hs h1) hr h2
    | under hw hs =>
      exact C93_set p v bs u c hg (fun y hy => hb y (by simp [hy])) (.under (unset_merged hu hl hw h1) hs) h2
termination_by bs => bs.length

theorem leadsIn_leads {a c v t : AVal} {bs : List AVal} (ha : Good a.erase) (hb : ∀ b ∈ bs, Good b.erase)
    (hs : LeadsIn (a :: bs) v t) (h : layered a bs = .ok c) : Leads c v t := by
  induction hs with
  | last hs ht => exact .last (C93_set _ _ _ _ _ ha hb hs h) ht
  | next hs _ ih => exact .next (C93_set _ _ _ _ _ ha hb hs h) ih

/-- **C93 (`resolve`).** A substitution in any layer stands for what all the layers together set at its path: a
layer above changes what the substitutions in the layers below mean, and one below gives values to those above.
The setting gets the value with the origin it has in its layer. -/
theorem C93_resolve_partial (env : Env) (n : Nat) (a c w v t : AVal) (bs : List AVal) (q : Path)
    (o : Resolve.Options) (ha : Good a.erase) (hb : ∀ b ∈ bs, Good b.erase) (h : layered a bs = .ok c)
    (hq : SetIn (a :: bs) q v) (hv : LeadsIn (a :: bs) v t) (hw : configResolveA env n c o = .ok (some w)) :
    peekPathA w q = .ok (some t) :=
  have hc := layered_good bs a c ha hb h
  ResolveOriginProps.C92_resolve_with_partial env n c c w v t q o hc hc (C93_set q v bs a c ha hb hq h)
    (leadsIn_leads ha hb hv h) hw

/-- **C93 (the others).** Settings without substitutions are not changed by resolving the layers. -/
theorem C93_kept (env : Env) (n : Nat) (a c w v : AVal) (bs : List AVal) (q : Path)
    (o : Resolve.Options) (ha : Good a.erase) (hb : ∀ b ∈ bs, Good b.erase) (h : layered a bs = .ok c)
    (hq : SetIn (a :: bs) q v) (hv : ¬ HasSubst v.erase) (hw : configResolveA env n c o = .ok (some w)) :
    peekPathA w q = .ok (some v) :=
  ResolveOriginProps.C92_plain_kept env n c c w v q o (layered_good bs a c ha hb h)
    (C93_set q v bs a c ha hb hq h) hv hw

theorem read_good {env : Env} {d : Str} {v : AVal} (h : ReadFrom env d v) : Good v.erase := by
  obtain ⟨base, inc, fl, s, n, m, _, _, _, hi, h⟩ := h
  have he := CommentProps.C71_parse env base inc fl s n
  rw [h] at he
  have hn : ∀ (r : Res (AVal × Nat)), (∀ x, r ≠ .ok x) → ∀ y, Res.mapOk (fun x : AVal × Nat => (x.1.erase, x.2)) r ≠ .ok y := by
    intro r hr y
    cases r with
    | ok x => exact absurd rfl (hr x)
    | err e => exact nofun
    | ub => exact nofun
    | fuel => exact nofun
  refine C69_parsed_partial env inc.erase fl s n m v.erase ?_ he.symm
  rintro name k w j (hw | hw)
  · exact absurd hw (hn _ (fun x => (hi name k x).1) _)
  · exact absurd hw (hn _ (fun x => (hi name k x).2) _)

/-- **C93 (texts).** Any number of texts without includes, layered with `with_fallback` and resolved. -/
theorem C93_texts_partial (env : Env) (n : Nat) (a c w v t : AVal) (bs : List AVal) (q : Path) (o : Resolve.Options)
    (hl : ∀ l ∈ a :: bs, ∃ d, ReadFrom env d l) (h : layered a bs = .ok c) (hq : SetIn (a :: bs) q v)
    (hv : LeadsIn (a :: bs) v t) (hw : configResolveA env n c o = .ok (some w)) : peekPathA w q = .ok (some t) :=
  C93_resolve_partial env n a c w v t bs q o (read_good (hl a (by simp)).choose_spec)
    (fun b hb => read_good (hl b (by simp [hb])).choose_spec) h hq hv hw

/-! ## The hypotheses are met -/

/-- A text read under a description. The number makes its substitutions other objects than those of the texts
before. -/
def exReadFrom (n : Nat) (d t : Str) : Res AVal :=
  Res.mapOk Prod.fst (parseTextA Tokenizer.exEnv { CommentProps.exBase with desc := d } CommentProps.noIncA .conf t n)

/-- Three layers: the uppermost sets `host`, which the lowest uses through the one between. -/
example : (exReadFrom 0 (ch "A") (ch "host : h2") >>= fun a => exReadFrom 0 (ch "B") (ch "s { at : ${host} }") >>=
      fun b => exReadFrom 1 (ch "C") (ch "host : h1, url : ${s.at}") >>= fun c => layered a [b, c] >>= fun v =>
      configResolveA Tokenizer.exEnv 9 v ⟨true, false⟩ >>= fun w => match w with
      | none => .ok none
      | some w => peekPathA w [ch "url"] >>= fun y => .ok (y.map fun y => (y.erase, y.origin.desc))) =
    .ok (some (.scalar (.str (ch "h2") false), ch "A")) := by decide +kernel

/-- The origin of the trees below. -/
def exOrigin : Origin := FilesA.source (ch "A")

/-- The three layers of the example. -/
def exA : AVal := .obj exOrigin [(ch "host", .scalar exOrigin (.str (ch "h2") false))] true false
/-- The layer between. -/
def exB : AVal := .obj exOrigin [(ch "s", .obj exOrigin [(ch "at", .ref exOrigin 0 [ch "host"] false 0)] false false)]
  false false
/-- The lowest layer. -/
def exC : AVal := .obj exOrigin [(ch "host", .scalar exOrigin (.str (ch "h1") false)),
  (ch "url", .ref exOrigin 1 [ch "s", ch "at"] false 0)] false false

example : SetIn [exA, exB, exC] [ch "url"] (.ref exOrigin 1 [ch "s", ch "at"] false 0) ∧
    LeadsIn [exA, exB, exC] (.ref exOrigin 1 [ch "s", ch "at"] false 0) (.scalar exOrigin (.str (ch "h2") false)) ∧
    (layered exA [exB, exC] >>= fun v => configResolveA Tokenizer.exEnv 9 v ⟨true, false⟩).isOk := by
  refine ⟨.under (.here (by decide)) (.under (.here (by decide)) (.top (.last (.tail _ (.head _))) (by simp))),
    .next (.under (.here (by decide)) (.top (.inner (.head _) (.last (.head _))) ?_)) (.last (.top (.last (.head _)) ?_) ?_),
    by decide +kernel⟩
  · simp only [List.mem_singleton, forall_eq]
    exact Or.inl (.here (by decide))
  · simp only [List.mem_cons, List.not_mem_nil, or_false, forall_eq_or_imp, forall_eq]
    exact ⟨Or.inl (.here (by decide)), Or.inr ⟨.last, trivial⟩⟩
  · rintro ⟨_, _, _, _, h⟩
    nomatch h

/-- A scalar below a section with substitutions is not hidden by the section as it should be: the path through
the section leads nowhere until the whole is resolved. This is why nothing but objects may be on the way. -/
example : (exRead (ch "A") (ch "s { x : ${y} }") >>= fun a => exRead (ch "B") (ch "s : 1") >>= fun b =>
      layered a [b] >>= fun v => match v with
      | .obj _ [(_, .dmo _ _)] _ _ => .ok true
      | _ => .ok false) = Res.ok true := by decide +kernel

end SeenProps
end Hocon
