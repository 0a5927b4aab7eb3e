import Verif.Lemmas.NotesBounds
import Verif.AccessNotes
import Verif.Props.CommentProps

/-!
# Positions and comments lie in the text (C73)

`Spec.origins` are the origins of a value and of everything in it, `Spec.Describes` and `Spec.CommentIn` say
what it means that they describe a text (Verif/Spec/Positions.lean).
-/

set_option autoImplicit false

namespace Hocon
namespace PositionProps

open Spec Notes CommentProps
open PathParser (Syntax)

/-! ## The tree of a text -/

theorem document_leaves {env : Env} {fl : Syntax} {s : Str} {ns : List Node}
    (h : DocParser.parseDocument env fl s = .ok ns) :
    LeavesOk (fun c => fl = .conf ∧ CommentIn s c) (lineCount s) ns ∧ 1 + nls ns ≤ lineCount s := by
  constructor
  · obtain ⟨toks, h1, _, used, rfl, u, h3, _, _, _, h4⟩ := DocParser.parseDocument_split h
    have hu : used = u := (List.append_inj' h3 rfl).1
    subst hu
    have hp := Tokenizer.tokenize_placed h1
    intro n hn
    obtain ⟨t, ht, hl⟩ := h4 n hn
    have := hp t (by simp [ht])
    rcases hl with rfl | ⟨rfl, d, c, l, rfl⟩
    · intro l hl
      exact_mod_cast this.line l hl
    · obtain ⟨g1, g2⟩ := this.comment d c l rfl
      exact ⟨by simpa using g1, g2⟩
  · have := (DocParser.C10_nothing_invented env fl s ns h).count_le '\n'
    unfold nls lineCount
    unfold Node.renderList at this
    push_cast
    omega

theorem parse_all {env : Env} {base : Origin} {inc : AIncluder} {fl : Syntax} {s : Str} {n m : Nat} {v : AVal}
    {K : Str → Prop} {P : Origin → Prop} (hP : Closed K P)
    (hK : ∀ c, fl = .conf → CommentIn s c → K c)
    (hb : ∀ l : Int, 1 ≤ l → l ≤ lineCount s → P (base.withLineNumber l)) (hi : IncP P inc)
    (h : parseTextA env base inc fl s n = .ok (v, m)) : All P v := by
  unfold parseTextA at h
  simp only [Res.bind_eq_ok] at h
  obtain ⟨ns, h1, ⟨r, n1⟩, h2, w, h3, h⟩ := h
  simp only [Res.ok.injEq, Prod.mk.injEq] at h
  obtain ⟨rfl, _⟩ := h
  obtain ⟨g1, g2⟩ := document_leaves h1
  have hl : LeavesOk K (lineCount s) ns := by
    intro x hx
    have := g1 x hx
    cases x <;> simp only [LeafOk] at this ⊢
    · exact hK _ this.1 this.2
    · exact this
  refine hP.parseRoot hb hi _ ns { line := 1 } none n r n1 hl (by simp) (by simp) g2 (by simp) h2 w ?_
  cases r with
  | none => simp [nonNullA] at h3
  | some x => simpa [nonNullA] using h3

/-! ## The invariants -/

theorem withComments_bare {o : Origin} {base : Origin} (hd : o.desc = base.desc) (hbase : base.bareDesc = base.desc) :
    o.bareDesc = base.desc := by
  unfold Origin.bareDesc at hbase ⊢
  rw [hd]; exact hbase

theorem closed_describes (base : Origin) (s : Str) (hbase : base.bareDesc = base.desc) (K : Str → Prop) :
    Closed K (fun o => Describes base s o ∧ ∀ c ∈ o.comments, K c) := by
  refine ⟨?_, ?_, ?_⟩
  · rintro a b ⟨ha, hac⟩ ⟨hb, hbc⟩
    have da := withComments_bare ha.desc hbase
    have db := withComments_bare hb.desc hbase
    have a1 := ha.first
    have a2 := ha.order
    have a3 := ha.last
    have b1 := hb.first
    have b2 := hb.order
    have b3 := hb.last
    refine ⟨⟨?_, ?_, ?_, ?_, ?_, ?_⟩, ?_⟩
    · simp only [Origin.mergeTwo, da, db, if_true]
    · simp only [Origin.mergeTwo, ha.type, hb.type, if_true]
    · simp only [Origin.mergeTwo, ha.resource, hb.resource, if_true]
    · simp only [Origin.mergeTwo, da, db, if_true, Origin.startLine]
      split
      · omega
      · split <;> omega
    · simp only [Origin.mergeTwo, da, db, if_true, Origin.startLine]
      split
      · omega
      · split <;> omega
    · simp only [Origin.mergeTwo, da, db, if_true]
      omega
    · intro c hc
      simp only [Origin.mergeTwo, Origin.mergeComments] at hc
      split at hc
      · exact hac c hc
      · rcases List.mem_append.1 hc with hc | hc
        · exact hac c hc
        · exact hbc c hc
  · rintro o cs ⟨ho, hc⟩ hcs
    unfold Origin.appendComments
    split
    · exact ⟨ho, hc⟩
    · have h1 := ho.order
      have h2 := ho.last
      refine ⟨⟨ho.desc, ho.type, ho.resource, ho.first, Int.le_refl _, by simp only; omega⟩, ?_⟩
      exact comments_append hc hcs
  · rintro o cs ⟨ho, hc⟩ hcs
    unfold Origin.prependComments
    split
    · exact ⟨ho, hc⟩
    · have h1 := ho.order
      have h2 := ho.last
      refine ⟨⟨ho.desc, ho.type, ho.resource, ho.first, Int.le_refl _, by simp only; omega⟩, ?_⟩
      exact comments_append hcs hc

theorem closed_comments (K : Str → Prop) : Closed K (fun o => ∀ c ∈ o.comments, K c) := by
  refine ⟨?_, ?_, ?_⟩
  · intro a b hac hbc c hc
    simp only [Origin.mergeTwo, Origin.mergeComments] at hc
    split at hc
    · exact hac c hc
    · exact comments_append hac hbc c hc
  · intro o cs hc hcs
    unfold Origin.appendComments
    split
    · exact hc
    · exact comments_append hc hcs
  · intro o cs hc hcs
    unfold Origin.prependComments
    split
    · exact hc
    · exact comments_append hcs hc

/-! ## C73 -/

/-- **C73 (partial).** Whatever the text, the origin of every value in the result names the source, its lines
are lines of the text, the first not after the last, and its comments are comments of the text; JSON
has no comments. Missing: sources whose description begins with `merge of `, see
`C73_description_violated`. -/
theorem C73_positions_partial (env : Env) (base : Origin) (inc : AIncluder) (fl : Syntax) (s : Str) (n m : Nat)
    (v : AVal) (hc : base.comments = []) (hbase : ¬ Origin.mergeOf <+: base.desc)
    (hi : ∀ name k x, inc.file name k ≠ .ok x ∧ inc.heuristic name k ≠ .ok x)
    (h : parseTextA env base inc fl s n = .ok (v, m)) :
    ∀ o ∈ origins v, Describes base s o ∧ (∀ c ∈ o.comments, CommentIn s c) ∧ (fl = .json → o.comments = []) := by
  have hbare : base.bareDesc = base.desc := by
    unfold Origin.bareDesc
    rw [if_neg]
    rwa [List.isPrefixOf_iff_prefix]
  have := parse_all (K := fun c => fl = .conf ∧ CommentIn s c) (closed_describes base s hbare _)
    (fun c h1 h2 => ⟨h1, h2⟩) ?_ ?_ h
  · intro o ho
    obtain ⟨h1, h2⟩ := this o ho
    refine ⟨h1, fun c hc => (h2 c hc).2, ?_⟩
    rintro rfl
    refine List.eq_nil_iff_forall_not_mem.2 fun c hc => ?_
    simpa using (h2 c hc).1
  · intro l h1 h2
    unfold Origin.withLineNumber
    split
    · rename_i hl
      exact ⟨⟨rfl, rfl, rfl, by omega, by omega, by omega⟩, by simp [hc]⟩
    · exact ⟨⟨rfl, rfl, rfl, h1, Int.le_refl _, h2⟩, by simp [hc]⟩
  · exact ⟨fun name k w m hw => absurd hw (hi name k (w, m)).1, fun name k w m hw => absurd hw (hi name k (w, m)).2⟩

/-- **C73.** With includes: every comment in the result is a comment of the text, or comes with what was
included. -/
theorem C73_comments (env : Env) (base : Origin) (inc : AIncluder) (fl : Syntax) (s : Str) (n m : Nat) (v : AVal)
    (hc : base.comments = []) (K : Str → Prop)
    (hf : ∀ name k w j, inc.file name k = .ok (w, j) → ∀ o ∈ origins w, ∀ c ∈ o.comments, K c)
    (hh : ∀ name k w j, inc.heuristic name k = .ok (w, j) → ∀ o ∈ origins w, ∀ c ∈ o.comments, K c)
    (h : parseTextA env base inc fl s n = .ok (v, m)) :
    ∀ o ∈ origins v, ∀ c ∈ o.comments, CommentIn s c ∨ K c := by
  refine parse_all (K := fun c => CommentIn s c ∨ K c) (closed_comments _) (fun c _ h => Or.inl h) ?_ ?_ h
  · intro l _ _
    unfold Origin.withLineNumber
    split <;> simp [hc]
  · exact ⟨fun name k w m hw o ho c hc => Or.inr (hf name k w m hw o ho c hc),
      fun name k w m hw o ho c hc => Or.inr (hh name k w m hw o ho c hc)⟩

/-! ### What is found at a path -/

mutual
theorem peek_origins : (v : AVal) → (k : Str) → (w : AVal) → attemptPeekA v k = .ok (some w) → ∀ o ∈ origins w, o ∈ origins v
  | .obj o fs r i, k, w, h => by
    simp only [attemptPeekA, Res.ok.injEq] at h
    have := all_findKey (P := (· ∈ originsF fs)) (fun f hf o ho => mem_originsF.2 ⟨f, hf, ho⟩) h
    intro o ho
    exact List.mem_cons_of_mem _ (this o ho)
  | .dmo o st, k, w, h => by
    simp only [attemptPeekA] at h
    intro x hx
    exact List.mem_cons_of_mem _ (stack_origins st k w h x hx)
  | .scalar .., k, w, h => by simp [attemptPeekA] at h
  | .list .., k, w, h => by simp [attemptPeekA] at h
  | .ref .., k, w, h => by simp [attemptPeekA] at h
  | .concat .., k, w, h => by simp [attemptPeekA] at h
  | .dm .., k, w, h => by simp [attemptPeekA] at h
  termination_by structural v => v
theorem stack_origins : (st : List AVal) → (k : Str) → (w : AVal) → peekStackA st k = .ok (some w) → ∀ o ∈ origins w, o ∈ originsL st
  | [], k, w, h => by simp [peekStackA] at h
  | v :: st, k, w, h => by
    have later : peekStackA st k = .ok (some w) → ∀ o ∈ origins w, o ∈ originsL (v :: st) := by
      intro h o ho
      rw [originsL]
      exact List.mem_append_right _ (stack_origins st k w h o ho)
    rw [peekStackA] at h
    split at h
    · change (attemptPeekA v k >>= _) = _ at h
      rw [Res.bind_eq_ok] at h
      obtain ⟨x, hx, h⟩ := h
      split at h
      · split at h
        · simp only [Res.ok.injEq, Option.some.injEq] at h
          subst h
          intro o ho
          rw [originsL]
          exact List.mem_append_left _ (peek_origins v k _ hx o ho)
        · exact later h
      · split at h
        · simp at h
        · exact later h
    · split at h
      · simp at h
      · split at h
        · exact later h
        · split at h
          · simp at h
          · simp at h
  termination_by structural st => st
end

/-- **C73.** What is found at a path has no other origins than the whole. -/
theorem C73_lookup : (v : AVal) → (p : Path) → (w : AVal) → peekPathA v p = .ok (some w) →
    ∀ o ∈ origins w, o ∈ origins v
  | _, [], _, h => by simp [peekPathA] at h
  | v, k :: p, w, h => by
    have h : ((attemptPeekA v k).bind fun v => if p.isEmpty then .ok v
        else match v with
          | some w => if w.erase.isObject then peekPathA w p else .ok none
          | none => .ok none) = .ok (some w) := by
      rw [peekPathA] at h
      generalize ((attemptPeekA v k).bind _ : Res (Option AVal)) = x at h ⊢
      cases x with
      | ok y => simpa [Value.recatch] using h
      | err e => exfalso; revert h; unfold Value.recatch; cases e <;> simp
      | ub => simp [Value.recatch] at h
      | fuel => simp [Value.recatch] at h
    change (attemptPeekA v k >>= _) = _ at h
    rw [Res.bind_eq_ok] at h
    obtain ⟨x, hx, h⟩ := h
    split at h
    · simp only [Res.ok.injEq] at h
      subst h
      exact peek_origins v k w hx
    · split at h
      · rename_i y
        split at h
        · intro o ho
          exact peek_origins v k y hx o (C73_lookup y p w h o ho)
        · simp at h
      · simp at h

/-- Two sections of the same name, a list in two pieces: their origins are merged. -/
example : Res.mapOk (fun r => (origins r.1).map fun o => (o.line, o.endLine, o.comments))
      (parseTextA Tokenizer.exEnv exBase noIncA .conf (ch "a { b : 1 } # x\n// y\na { c : [2] [3] }\n") 0)
    = .ok [(1, 1, []), (1, 3, [ch " y", ch " x"]), (3, 3, []), (3, 3, []), (3, 3, []), (1, 1, [])] := by decide +kernel

/-- The code violates the unrestricted C73: if the description of the source begins with `merge of `, merging
two settings of the text loses these words. -/
theorem C73_description_violated :
    ∃ v, parseTextA Tokenizer.exEnv { exBase with desc := ch "merge of x" } noIncA .conf (ch "a : [1] [2]") 0 = .ok (v, 0) ∧
      (origins v).map Origin.desc = [ch "merge of x", ch "x", ch "merge of x", ch "merge of x"] := ⟨_, rfl, rfl⟩

end PositionProps
end Hocon
