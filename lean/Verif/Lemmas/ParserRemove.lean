import Verif.Lemmas.LexCut

/-!
# Parsing a document from which a field is taken out
-/

set_option autoImplicit false

namespace Hocon
namespace DocParser
open PathParser (Syntax)
open Node Tokenizer DocEdit

/-- The keys seen so far and a comma before do not matter in HOCON. -/
theorem keys_free (env : Env) (f : Nat) :
    (∀ ho ac ac' keys keys' T, objectLoop env .conf f ho ac keys T = objectLoop env .conf f ho ac' keys' T) ∧
    (∀ ho keys keys' T, objectSep env .conf f ho keys T = objectSep env .conf f ho keys' T) := by
  induction f with
  | zero => constructor <;> intros <;> simp [objectLoop, objectSep]
  | succ f ih =>
    constructor
    · intro ho ac ac' keys keys' T
      rw [objectLoop, objectLoop]
      congr 1
      funext ⟨ws, t, ts⟩
      have hinc : ∀ x : Node × List Tok, (objectSep env .conf f ho keys x.2 >>= fun y => Res.ok (ws ++ x.1 :: y.1, y.2)) =
          (objectSep env .conf f ho keys' x.2 >>= fun y => Res.ok (ws ++ x.1 :: y.1, y.2)) := by
        intro x; rw [ih.2 ho keys keys']
      have hfld : ∀ x : Path × Node × List Tok,
          (addKey .conf keys x.1 >>= fun k => objectSep env .conf f ho k x.2.2 >>= fun y => Res.ok (ws ++ x.2.1 :: y.1, y.2)) =
          (addKey .conf keys' x.1 >>= fun k => objectSep env .conf f ho k x.2.2 >>= fun y =>
            Res.ok (ws ++ x.2.1 :: y.1, y.2)) := by
        rintro ⟨p, n, r⟩
        cases p with
        | nil => rfl
        | cons k p =>
          simp only [addKey, Res.ok_bind]
          rw [ih.2 ho (k :: keys) (k :: keys')]
      have e1 : (fun x : Node × List Tok => (objectSep env .conf f ho keys x.2 >>= fun y => Res.ok (ws ++ x.1 :: y.1, y.2))) =
          _ := funext hinc
      have e2 : (fun x : Path × Node × List Tok =>
          (addKey .conf keys x.1 >>= fun k => objectSep env .conf f ho k x.2.2 >>= fun y => Res.ok (ws ++ x.2.1 :: y.1, y.2))) =
          _ := funext hfld
      simp only
      split
      · simp
      · split
        · rfl
        · split
          · exact congrArg (fun k => parseInclude [.single t] ts >>= k) e1
          · exact congrArg (fun k => parseField env .conf f t ts >>= k) e2
    · intro ho keys keys' T
      rw [objectSep, objectSep]
      congr 1
      funext ⟨ws, b, ts⟩
      simp only
      split
      · rw [ih.1 ho true true keys keys']
      · rfl

/-- Nodes collected in front. -/
theorem nextCollect_front {T : List Tok} {ws : List Node} {t : Tok} {ts : List Tok}
    (h : nextCollect .conf T = .ok (ws, t, ts)) (R : List Tok) :
    nextCollect .conf (tokensList ws ++ R) = nextCollect .conf R >>= fun x => .ok (ws ++ x.1, x.2.1, x.2.2) := by
  induction T generalizing ws with
  | nil => simp [nextCollect] at h
  | cons x xs ih =>
    rw [nextCollect, Res.bind_eq_ok] at h
    obtain ⟨_, _, h⟩ := h
    split at h
    · rename_i n hn
      rw [Res.bind_eq_ok] at h
      obtain ⟨⟨ns1, t1, ts1⟩, h1, h⟩ := h
      simp only [Res.ok.injEq, Prod.mk.injEq] at h
      obtain ⟨rfl, rfl, rfl⟩ := h
      have e : tokens n = [x] := by
        cases x <;> simp only [collectNode, reduceCtorEq, Option.some.injEq] at hn
        all_goals first | (subst hn; rfl) | (split at hn <;> simp at hn; subst hn; rfl)
      rw [tokensList, e]
      simp only [List.cons_append, List.nil_append]
      rw [nextCollect]
      simp only [nextToken, Res.ok_bind, hn]
      rw [ih h1]
      cases nextCollect .conf R <;> rfl
    · simp only [Res.ok.injEq, Prod.mk.injEq] at h
      obtain ⟨rfl, _, _⟩ := h
      simp only [tokensList, List.nil_append]
      cases nextCollect .conf R <;> rfl

theorem objectLoop_front {env : Env} {T : List Tok} {ws : List Node} {t : Tok} {ts : List Tok}
    (h : nextCollect .conf T = .ok (ws, t, ts)) (g : Nat) (ho ac : Bool) (keys : List Str) (R : List Tok) :
    objectLoop env .conf g ho ac keys (tokensList ws ++ R) =
      objectLoop env .conf g ho ac keys R >>= fun x => .ok (ws ++ x.1, x.2) := by
  cases g with
  | zero => rw [objectLoop, objectLoop]; rfl
  | succ g =>
    rw [objectLoop, objectLoop, nextCollect_front h]
    cases hR : nextCollect .conf R with
    | err e => rfl
    | ub => rfl
    | fuel => rfl
    | ok x =>
      obtain ⟨w2, t2, r2⟩ := x
      simp only [Res.ok_bind]
      split
      · cases ho <;> simp [bind, Res.bind]
      · split
        · simp [bind, Res.bind]
        · split
          · cases parseInclude [.single t2] r2 with
            | ok x =>
              simp only [Res.ok_bind]
              cases objectSep env .conf g ho keys x.2 <;> simp [bind, Res.bind]
            | _ => rfl
          · cases parseField env .conf g t2 r2 with
            | ok x =>
              simp only [Res.ok_bind]
              cases addKey .conf keys x.1 with
              | ok k =>
                simp only [Res.ok_bind]
                cases objectSep env .conf g ho k x.2.2 <;> simp [bind, Res.bind]
              | _ => rfl
            | _ => rfl

/-- The separator loop and the nodes it collects. -/
theorem sepLoop_collect {saw : Bool} {T : List Tok} {ns : List Node} {b : Bool} {ts : List Tok}
    (h : sepLoop saw T = .ok (ns, b, ts)) :
    ∃ ns0 t r, nextCollect .conf T = .ok (ns0, t, r) ∧
      ((t = .comma ∧ ns = ns0 ++ [.single .comma] ∧ b = true ∧ ts = r) ∨
        (t ≠ .comma ∧ ns = ns0 ∧ ts = t :: r ∧ (b = true → saw = true ∨ ∃ k, Tok.newline k ∈ tokensList ns0))) := by
  induction T generalizing ns saw with
  | nil => simp [sepLoop] at h
  | cons x xs ih =>
    rw [sepLoop.eq_def] at h
    simp only at h
    split at h
    · simp only [Res.ok.injEq, Prod.mk.injEq] at h
      obtain ⟨rfl, rfl, rfl⟩ := h
      exact ⟨[], .comma, xs, rfl, Or.inl ⟨rfl, rfl, rfl, rfl⟩⟩
    · rename_i hnc
      split at h
      · rename_i n hn
        rw [Res.bind_eq_ok] at h
        obtain ⟨⟨ns1, b1, ts1⟩, h1, h⟩ := h
        simp only [Res.ok.injEq, Prod.mk.injEq] at h
        obtain ⟨rfl, rfl, rfl⟩ := h
        have e : tokens n = [x] := by
          cases x <;> simp only [collectNode, reduceCtorEq, Option.some.injEq] at hn
          all_goals first | (subst hn; rfl) | (split at hn <;> simp at hn; subst hn; rfl)
        obtain ⟨ns0, t, r, g1, g2⟩ := ih h1
        refine ⟨n :: ns0, t, r, ?_, ?_⟩
        · rw [nextCollect]
          simp only [nextToken, Res.ok_bind, hn]
          rw [g1]; rfl
        · rcases g2 with ⟨rfl, rfl, rfl, rfl⟩ | ⟨k1, rfl, rfl, k2⟩
          · exact Or.inl ⟨rfl, rfl, rfl, rfl⟩
          · refine Or.inr ⟨k1, rfl, rfl, fun hb => ?_⟩
            rcases k2 hb with k2 | ⟨k, k2⟩
            · cases x with
              | newline k => right; exact ⟨k, by rw [tokensList, e]; simp⟩
              | _ => left; exact k2
            · right; exact ⟨k, by rw [tokensList]; simp [k2]⟩
      · rename_i hn
        simp only [Res.ok.injEq, Prod.mk.injEq] at h
        obtain ⟨rfl, rfl, rfl⟩ := h
        refine ⟨[], x, xs, ?_, Or.inr ⟨?_, rfl, rfl, fun h => Or.inl h⟩⟩
        · rw [nextCollect]; simp only [nextToken, Res.ok_bind, hn]
        · rintro rfl; exact hnc rfl

/-- A newline among collected nodes. -/
def sawLine (ns : List Node) : Bool := ns.any fun n => match n with | .single (.newline _) => true | _ => false

theorem sawLine_of {ns : List Node} (hp : ∀ n ∈ ns, Plain n) (h : ∃ k, Tok.newline k ∈ tokensList ns) : sawLine ns = true := by
  obtain ⟨k, h⟩ := h
  induction ns with
  | nil => simp [tokensList] at h
  | cons n ns ih =>
    simp only [tokensList, List.mem_append] at h
    rcases h with h | h
    · obtain ⟨t, rfl | ⟨rfl, _, _, _, rfl⟩⟩ := hp n (by simp)
      · simp only [tokens, List.mem_singleton] at h
        rw [← h]
        simp [sawLine]
      · simp [tokens] at h
    · have := ih (fun m hm => hp m (by simp [hm])) h
      simp only [sawLine, List.any_cons, Bool.or_eq_true] at this ⊢
      exact Or.inr this

theorem sepLoop_front {T : List Tok} {ws : List Node} {t : Tok} {ts : List Tok}
    (h : nextCollect .conf T = .ok (ws, t, ts)) (saw : Bool) (R : List Tok) :
    sepLoop saw (tokensList ws ++ R) = sepLoop (saw || sawLine ws) R >>= fun x => .ok (ws ++ x.1, x.2.1, x.2.2) := by
  induction T generalizing ws saw with
  | nil => simp [nextCollect] at h
  | cons x xs ih =>
    rw [nextCollect, Res.bind_eq_ok] at h
    obtain ⟨_, _, h⟩ := h
    split at h
    · rename_i n hn
      rw [Res.bind_eq_ok] at h
      obtain ⟨⟨ns1, t1, ts1⟩, h1, h⟩ := h
      simp only [Res.ok.injEq, Prod.mk.injEq] at h
      obtain ⟨rfl, rfl, rfl⟩ := h
      have e : tokens n = [x] := by
        cases x <;> simp only [collectNode, reduceCtorEq, Option.some.injEq] at hn
        all_goals first | (subst hn; rfl) | (split at hn <;> simp at hn; subst hn; rfl)
      rw [tokensList, e]
      simp only [List.cons_append, List.nil_append]
      have hstep : ∀ Y, sepLoop saw (x :: Y) = sepLoop (saw || sawLine [n]) Y >>= fun y => .ok (n :: y.1, y.2.1, y.2.2) := by
        intro Y
        rw [sepLoop.eq_def]
        cases x <;> simp only [collectNode, reduceCtorEq, Option.some.injEq] at hn
        · subst hn; simp only [collectNode]; simp [sawLine]
        · split at hn
          · rename_i hu
            simp only [Option.some.injEq] at hn; subst hn; simp only [collectNode, hu, if_true]; simp [sawLine]
          · cases hn
        · subst hn; simp only [collectNode]; simp [sawLine]
        · subst hn; simp only [collectNode]; simp [sawLine]
      rw [hstep, ih h1]
      have hs2 : sawLine (n :: ns1) = (sawLine [n] || sawLine ns1) := by simp [sawLine]
      rw [hs2, Bool.or_assoc]
      cases sepLoop (saw || (sawLine [n] || sawLine ns1)) R <;> rfl
    · simp only [Res.ok.injEq, Prod.mk.injEq] at h
      obtain ⟨rfl, _, _⟩ := h
      simp only [tokensList, List.nil_append, sawLine, List.any_nil, Bool.or_false]
      cases sepLoop saw R <;> rfl

theorem sepLoop_true {T : List Tok} {ws : List Node} {t : Tok} {ts : List Tok}
    (h : nextCollect .conf T = .ok (ws, t, ts)) (ht : t ≠ .comma) : sepLoop true T = .ok (ws, true, t :: ts) := by
  obtain ⟨e, _, hc⟩ := nextCollect_spec h
  rw [e, sepLoop_front h]
  have : sepLoop (true || sawLine ws) (t :: ts) = .ok ([], true, t :: ts) := by
    rw [Bool.true_or, sepLoop.eq_def]
    cases t <;> first | exact absurd rfl ht | (simp only [hc])
  rw [this]
  simp [bind, Res.bind]

/-- The head of a text on which the loop does not fail. -/
theorem le_head {env : Env} {ho : Bool} {T : List Tok} {x : List Node × List Tok}
    (h : ∀ ac keys g, Le (objectLoop env .conf g ho ac keys T) (.ok x)) :
    ∃ wa ta ra, nextCollect .conf T = .ok (wa, ta, ra) ∧ ta ≠ .comma := by
  have h2 := h false [] 2
  rw [objectLoop] at h2
  cases hn : nextCollect .conf T with
  | ok y =>
    obtain ⟨wa, ta, ra⟩ := y
    refine ⟨wa, ta, ra, rfl, ?_⟩
    rintro rfl
    rw [hn] at h2
    simp only [Res.ok_bind, Tok.isEnd, Bool.false_and, Bool.false_eq_true, if_false] at h2
    simp [parseField, parseKey, keyRun, bind, Res.bind, isIncludeKeyword] at h2
    rcases h2 with h2 | h2 <;> cases h2
  | err e => rw [hn] at h2; rcases h2 with h2 | h2 <;> cases h2
  | ub => rw [hn] at h2; rcases h2 with h2 | h2 <;> cases h2
  | fuel =>
    exfalso
    clear h h2
    induction T with
    | nil => simp [nextCollect] at hn
    | cons y ys ih =>
      rw [nextCollect] at hn
      simp only [nextToken, Res.ok_bind] at hn
      split at hn
      · cases hy : nextCollect .conf ys with
        | fuel => exact ih hy
        | _ => rw [hy] at hn; simp [bind, Res.bind] at hn
      · simp at hn

/-- No tokens or one whitespace token. -/
def Gap (w : List Tok) : Prop := w = [] ∨ ∃ s l, w = [Tok.ws s l]

/-- What is in front of a field: the beginning of the line. -/
theorem collect_edge {b : Bool} {T : List Tok} {ns : List Node} {t : Tok} {ts : List Tok}
    (h : nextCollect .conf T = .ok (ns, t, ts)) (hc : Chain b T) (ha : NoAdjWs T) (ht : t.isSimple = true) :
    (Gap (tokensList ns)) ∨ (∃ a k w, tokensList ns = a ++ .newline k :: w ∧ Gap w) ∨
      (b = true ∧ ∃ x k, tokensList ns = [.unquoted x k]) := by
  induction T generalizing b ns with
  | nil => simp [nextCollect] at h
  | cons x xs ih =>
    rw [nextCollect, Res.bind_eq_ok] at h
    obtain ⟨_, _, h⟩ := h
    split at h
    · rename_i n hn
      rw [Res.bind_eq_ok] at h
      obtain ⟨⟨ns1, t1, ts1⟩, h1, h⟩ := h
      simp only [Res.ok.injEq, Prod.mk.injEq] at h
      obtain ⟨rfl, rfl, rfl⟩ := h
      have e : tokens n = [x] := by
        cases x <;> simp only [collectNode, reduceCtorEq, Option.some.injEq] at hn
        all_goals first | (subst hn; rfl) | (split at hn <;> simp at hn; subst hn; rfl)
      have hr := ih h1 hc.2.2 ha.tail
      have e1 := (nextCollect_spec h1).1
      rw [tokensList, e, List.cons_append, List.nil_append]
      cases x with
      | newline k =>
        right; left
        rcases hr with hr | ⟨a, k', w, hr, hw⟩ | ⟨hb, _⟩
        · exact ⟨[], k, _, rfl, hr⟩
        · exact ⟨.newline k :: a, k', w, by rw [hr]; rfl, hw⟩
        · cases hb
      | ws s l =>
        rcases hr with hr | ⟨a, k', w, hr, hw⟩ | ⟨hb, _⟩
        · rcases hr with hr | ⟨s', l', hr⟩
          · left; rw [hr]; exact Or.inr ⟨s, l, rfl⟩
          · exfalso
            rw [hr] at e1
            subst e1
            exact ha [] _ s l s' l' rfl
        · right; left
          exact ⟨.ws s l :: a, k', w, by rw [hr]; rfl, hw⟩
        · cases hb
      | comment d c l =>
        obtain ⟨y, ys, hy, hy2⟩ := hc.2.1 ⟨_, _, _, rfl⟩
        rw [hy] at e1
        rcases hr with hr | ⟨a, k', w, hr, hw⟩ | ⟨hb, _⟩
        · exfalso
          rcases hr with hr | ⟨s', l', hr⟩
          · rw [hr] at e1
            simp at e1
            rcases hy2 with rfl | ⟨k, rfl⟩ <;> (rw [← e1.1] at ht; simp [Tok.isSimple] at ht)
          · rw [hr] at e1
            simp at e1
            rcases hy2 with rfl | ⟨k, rfl⟩ <;> simp at e1
        · right; left
          exact ⟨.comment d c l :: a, k', w, by rw [hr]; rfl, hw⟩
        · cases hb
      | unquoted s l =>
        simp only [collectNode] at hn
        split at hn
        · rename_i hu
          obtain ⟨hb, y, ys, hy, hy2, hy3⟩ := hc.1 hu
          right; right
          refine ⟨hb, s, l, ?_⟩
          have : ns1 = [] := by
            rw [hy, nextCollect] at h1
            have hcy : collectNode y = none := by
              cases y <;> simp [Tok.isSimple] at hy2 <;> simp [collectNode, hy3]
            simp only [nextToken, Res.ok_bind, hcy, Res.ok.injEq, Prod.mk.injEq] at h1
            exact h1.1.symm
          rw [this]; rfl
        · cases hn
      | _ => simp [collectNode] at hn
    · simp only [Res.ok.injEq, Prod.mk.injEq] at h
      rw [← h.1]
      exact Or.inl (Or.inl rfl)

/-- Every comma behind a field stands on its line: before it are blanks only. -/
def CommaOk (b : List Node) : Prop :=
  ∀ a c, b = a ++ .single .comma :: c → (∀ n ∈ a, Plain n) → ∀ n ∈ a, (∃ s l, n = .single (.ws s l)) ∨ n = .single .comma

theorem dropSep_ws (s : Str) (l : Int) (b : List Node) : dropSep (.single (.ws s l) :: b) = dropSep b := by
  rw [dropSep]; rfl

theorem dropSep_comma (b : List Node) : dropSep (.single .comma :: b) = dropSep b := by
  rw [dropSep]; rfl

/-- What may stand behind a removed field without a comma. -/
def Stops (TE : List Tok) : Prop :=
  ∃ t r, TE = t :: r ∧ ((∃ k, t = .newline k) ∨ (∃ d c k, t = .comment d c k) ∨ t = .closeCurly ∨ t = .end_)

/-- The tokens removed behind a field, and what follows them. -/
def Dropped (D TE : List Tok) : Prop :=
  (∃ w0 w1, D = w0 ++ .comma :: w1 ∧ Gap w0 ∧ Gap w1 ∧ ∃ t r, TE = t :: r ∧ ∀ s l, t ≠ .ws s l) ∨ (Gap D ∧ Stops TE)

/-- A loop that ends well begins with the nodes it collects; none of them is a comma. -/
theorem objectLoop_head {env : Env} {f : Nat} {ho ac : Bool} {keys : List Str} {T : List Tok} {ns : List Node}
    {R : List Tok} (h : objectLoop env .conf f ho ac keys T = .ok (ns, R)) :
    ∃ ws t ts m, nextCollect .conf T = .ok (ws, t, ts) ∧ ns = ws ++ m ∧
      (m = [] ∨ ∃ x m', m = x :: m' ∧ hasTok Tok.isWs x = false ∧ hasTok Tok.isComma x = false) := by
  cases f with
  | zero => simp [objectLoop] at h
  | succ f =>
    rw [objectLoop, Res.bind_eq_ok] at h
    obtain ⟨⟨ws, t, ts⟩, h1, h⟩ := h
    refine ⟨ws, t, ts, ?_⟩
    simp only at h
    split at h
    · rw [if_neg (by simp)] at h
      split at h
      · simp at h
      simp only [Res.ok.injEq, Prod.mk.injEq] at h
      exact ⟨_, h1, h.1.symm, Or.inr ⟨_, _, rfl, rfl, rfl⟩⟩
    · split at h
      · simp only [Res.ok.injEq, Prod.mk.injEq] at h
        exact ⟨[], h1, by simp [h.1], Or.inl rfl⟩
      · split at h
        · rw [Res.bind_eq_ok] at h
          obtain ⟨⟨inc, ts2⟩, h2, h⟩ := h
          rw [Res.bind_eq_ok] at h
          obtain ⟨⟨n2, ts3⟩, h3, h⟩ := h
          simp only [Res.ok.injEq, Prod.mk.injEq] at h
          have hni : inc.singleToken? = none := by
            clear h h3
            unfold parseInclude at h2
            rw [Res.bind_eq_ok] at h2
            obtain ⟨⟨ws, t, ts⟩, h1, h⟩ := h2
            simp only at h
            repeat' (split at h <;> try (simp at h; done))
            all_goals first
              | (simp only [Res.ok.injEq, Prod.mk.injEq] at h; rw [← h.1]; rfl)
              | (rw [Res.bind_eq_ok] at h
                 obtain ⟨⟨ws, t, ts⟩, h1, h⟩ := h
                 simp only at h
                 repeat' (split at h <;> try (simp at h; done))
                 rw [Res.bind_eq_ok] at h
                 obtain ⟨⟨ws, t, ts⟩, h1, h⟩ := h
                 simp only at h
                 split at h
                 · simp only [Res.ok.injEq, Prod.mk.injEq] at h
                   rw [← h.1]; rfl
                 · simp at h)
          exact ⟨_, h1, h.1.symm, Or.inr ⟨_, _, rfl, by simp [hasTok, hni], by simp [hasTok, hni]⟩⟩
        · rw [Res.bind_eq_ok] at h
          obtain ⟨⟨p, fld, ts2⟩, h2, h⟩ := h
          rw [Res.bind_eq_ok] at h
          obtain ⟨keys', hk, h⟩ := h
          rw [Res.bind_eq_ok] at h
          obtain ⟨⟨n2, ts3⟩, h3, h⟩ := h
          simp only [Res.ok.injEq, Prod.mk.injEq] at h
          have hfl : ∃ cs, fld = .field cs := by
            cases f with
            | zero => simp [parseField] at h2
            | succ f =>
              rw [parseField, Res.bind_eq_ok] at h2
              obtain ⟨⟨_, _, _⟩, _, h2⟩ := h2
              rw [Res.bind_eq_ok] at h2
              obtain ⟨⟨_, _, _⟩, _, h2⟩ := h2
              simp only at h2
              split at h2
              · rw [Res.bind_eq_ok] at h2
                obtain ⟨⟨_, _⟩, _, h2⟩ := h2
                simp only [Res.ok.injEq, Prod.mk.injEq] at h2
                exact ⟨_, h2.2.1.symm⟩
              · split at h2
                · rw [Res.bind_eq_ok] at h2
                  obtain ⟨⟨_, _, _⟩, _, h2⟩ := h2
                  simp only [Res.ok.injEq, Prod.mk.injEq] at h2
                  exact ⟨_, h2.2.1.symm⟩
                · simp at h2
          obtain ⟨cs, rfl⟩ := hfl
          exact ⟨_, h1, h.1.symm, Or.inr ⟨_, _, rfl, rfl, rfl⟩⟩

/-- The first collected node. -/
theorem collect_first {T : List Tok} {ws : List Node} {t : Tok} {ts : List Tok}
    (h : nextCollect .conf T = .ok (ws, t, ts)) (ha : NoAdjWs T) :
    ∃ w ws' T', Gap w ∧ T = w ++ T' ∧ ws = w.map .single ++ ws' ∧ nextCollect .conf T' = .ok (ws', t, ts) ∧
      (ws' = [] ∨ ∃ x m', ws' = x :: m' ∧ hasTok Tok.isWs x = false ∧ hasTok Tok.isComma x = false) ∧
      (∃ y r, T' = y :: r ∧ ∀ s l, y ≠ .ws s l) := by
  have key : ∀ {T ws}, nextCollect .conf T = .ok (ws, t, ts) → (∀ s l r, T ≠ .ws s l :: r) →
      (ws = [] ∨ ∃ x m', ws = x :: m' ∧ hasTok Tok.isWs x = false ∧ hasTok Tok.isComma x = false) ∧
      (∃ y r, T = y :: r ∧ ∀ s l, y ≠ .ws s l) := by
    intro T ws h hT
    cases T with
    | nil => simp [nextCollect] at h
    | cons x xs =>
      refine ⟨?_, x, xs, rfl, fun s l hx => hT s l xs (by rw [hx])⟩
      rw [nextCollect, Res.bind_eq_ok] at h
      obtain ⟨_, _, h⟩ := h
      split at h
      · rename_i n hn
        rw [Res.bind_eq_ok] at h
        obtain ⟨⟨ns1, t1, ts1⟩, h1, h⟩ := h
        simp only [Res.ok.injEq, Prod.mk.injEq] at h
        right
        refine ⟨n, ns1, h.1.symm, ?_⟩
        cases x with
        | ws s l => exact absurd rfl (hT s l xs)
        | newline k => simp only [collectNode, Option.some.injEq] at hn; rw [← hn]; exact ⟨rfl, rfl⟩
        | comment d c k => simp only [collectNode, Option.some.injEq] at hn; rw [← hn]; exact ⟨rfl, rfl⟩
        | unquoted s k =>
          simp only [collectNode] at hn
          split at hn
          · simp only [Option.some.injEq] at hn; rw [← hn]; exact ⟨rfl, rfl⟩
          · cases hn
        | _ => simp [collectNode] at hn
      · simp only [Res.ok.injEq, Prod.mk.injEq] at h
        exact Or.inl h.1.symm
  by_cases hw : ∃ s l r, T = .ws s l :: r
  · obtain ⟨s, l, r, rfl⟩ := hw
    rw [nextCollect, Res.bind_eq_ok] at h
    obtain ⟨_, _, h⟩ := h
    simp only [collectNode] at h
    rw [Res.bind_eq_ok] at h
    obtain ⟨⟨ns1, t1, ts1⟩, h1, h⟩ := h
    simp only [Res.ok.injEq, Prod.mk.injEq] at h
    obtain ⟨rfl, rfl, rfl⟩ := h
    obtain ⟨k1, k2⟩ := key h1 (by rintro s' l' r' rfl; exact ha [] _ _ _ _ _ rfl)
    exact ⟨[.ws s l], ns1, r, Or.inr ⟨s, l, rfl⟩, rfl, rfl, h1, k1, k2⟩
  · obtain ⟨k1, k2⟩ := key h (fun s l r hT => hw ⟨s, l, r, hT⟩)
    exact ⟨[], ws, T, Or.inl rfl, rfl, rfl, h, k1, k2⟩

theorem dropSep_gap {w : List Tok} (hw : Gap w) (b : List Node) : dropSep (w.map .single ++ b) = dropSep b := by
  rcases hw with rfl | ⟨s, l, rfl⟩
  · rfl
  · exact dropSep_ws s l b

theorem dropSep_stop {b : List Node}
    (h : b = [] ∨ ∃ x m', b = x :: m' ∧ hasTok Tok.isWs x = false ∧ hasTok Tok.isComma x = false) : dropSep b = b := by
  rcases h with rfl | ⟨x, m, rfl, h1, h2⟩
  · rfl
  · rw [dropSep, h1, h2]; rfl

/-- What follows a field, when the field and the separator are taken out. -/
theorem objectSep_drop {env : Env} {f : Nat} {ho : Bool} {keys : List Str} {b : Bool} {T : List Tok} {ns : List Node}
    {R : List Tok} (h : objectSep env .conf f ho keys T = .ok (ns, R)) (hg : Good env true T) (hc : Chain b T)
    (hk : CommaOk ns) :
    ∃ D TE, T = D ++ TE ∧ Dropped D TE ∧ ns = D.map .single ++ dropSep ns ∧ (∃ u, TE = u ++ R) ∧
      ∀ ac keys g, Le (objectLoop env .conf g ho ac keys TE) (.ok (dropSep ns, R)) := by
  cases f with
  | zero => simp [objectSep] at h
  | succ f =>
    rw [objectSep, Res.bind_eq_ok] at h
    obtain ⟨⟨ws, sep, ts1⟩, h1, h⟩ := h
    rw [checkSep] at h1
    obtain ⟨ns0, t, r, c1, c2⟩ := sepLoop_collect h1
    obtain ⟨e1, p1, q1⟩ := nextCollect_spec c1
    simp only at h
    obtain ⟨w, ws', T', g1, g2, g3, g4, g5, g6⟩ := collect_first c1 hg.adj
    rcases c2 with ⟨rfl, rfl, rfl, rfl⟩ | ⟨hnc, rfl, rfl, hb⟩
    · -- a comma
      simp only [if_true] at h
      rw [Res.bind_eq_ok] at h
      obtain ⟨⟨n3, R3⟩, h3, h⟩ := h
      simp only [Res.ok.injEq, Prod.mk.injEq] at h
      obtain ⟨rfl, rfl⟩ := h
      have hws : ws' = [] := by
        rcases g5 with g5 | ⟨x, m', g5, g7, g8⟩
        · exact g5
        · exfalso
          rcases hk ns0 n3 (by simp) p1 x (by rw [g3, g5]; simp) with ⟨s, l, rfl⟩ | rfl
          · simp [hasTok, singleToken?, Tok.isWs] at g7
          · simp [hasTok, singleToken?, Tok.isComma] at g8
      subst hws
      have hgr : Good env true ts1 := by
        rw [e1] at hg
        exact (hg.suffix (a := tokensList ns0)).tail
      obtain ⟨wa, ta, ra, m, d1, d2, d3⟩ := objectLoop_head h3
      obtain ⟨w1, wb, Tb, k1, k2, k3, k4, k5, k6⟩ := collect_first d1 hgr.adj
      have hfin : wb ++ m = [] ∨ ∃ x m', wb ++ m = x :: m' ∧ hasTok Tok.isWs x = false ∧ hasTok Tok.isComma x = false := by
        rcases k5 with rfl | ⟨x, m', rfl, k7, k8⟩
        · exact d3
        · exact Or.inr ⟨x, m' ++ m, rfl, k7, k8⟩
      have hdrop : dropSep (ns0 ++ [.single .comma] ++ n3) = wb ++ m := by
        rw [g3, d2, k3]
        simp only [List.append_nil, List.append_assoc, List.cons_append, List.nil_append]
        rw [dropSep_gap g1, dropSep_comma, dropSep_gap k1, dropSep_stop hfin]
      have hmono : objectLoop env .conf f ho true keys Tb = .ok (wb ++ m, R3) := by
        have hT1 : ts1 = tokensList (w1.map .single) ++ Tb := by rw [tokensList_single]; exact k2
        have hfr : nextCollect .conf (w1 ++ [.end_]) = .ok (w1.map .single, .end_, []) := by
          rcases k1 with rfl | ⟨s, l, rfl⟩ <;> rfl
        rw [hT1, objectLoop_front hfr, Res.bind_eq_ok] at h3
        obtain ⟨⟨n4, R4⟩, h5, h6⟩ := h3
        simp only [Res.ok.injEq, Prod.mk.injEq] at h6
        obtain ⟨h6, rfl⟩ := h6
        rw [d2, k3, List.append_assoc] at h6
        rw [h5, List.append_cancel_left h6]
      refine ⟨w ++ .comma :: w1, Tb, ?_, Or.inl ⟨w, w1, rfl, g1, k1, k6⟩, ?_,
        ((spec_all env .conf true f).obj _ _ _ _ _ _ hmono (by rw [k2] at hgr; exact hgr.suffix)).suffix, ?_⟩
      · rw [e1, g3]
        simp only [List.append_nil, tokensList_single]
        rw [k2]; simp
      · rw [hdrop, g3, d2, k3]; simp
      · intro ac keys2 g
        rw [hdrop]
        exact ok_of_step (x := fun g => objectLoop env .conf g ho ac keys2 Tb) (f := f)
          (fun f => (mono_all env .conf f).obj _ _ _ _) (by rw [(keys_free env f).1 ho ac true keys2 keys]; exact hmono) g
    · -- no comma
      have hend : sep = false → ∃ m, ns = ws ++ m ∧ ((t = .closeCurly ∧ ho = true ∧ m = [.single .closeCurly] ∧ R = r) ∨
          (t = .end_ ∧ ho = false ∧ m = [] ∧ R = t :: r)) := by
        rintro rfl
        simp only [Bool.false_eq_true, if_false] at h
        rw [Res.bind_eq_ok] at h
        obtain ⟨⟨ws2, t2, r2⟩, h2, h⟩ := h
        rw [nextCollect] at h2
        simp only [nextToken, Res.ok_bind, q1, Res.ok.injEq, Prod.mk.injEq] at h2
        obtain ⟨rfl, rfl, rfl⟩ := h2
        simp only at h
        split at h
        · split at h
          · rename_i hho
            simp only [Res.ok.injEq, Prod.mk.injEq] at h
            exact ⟨[.single .closeCurly], by rw [← h.1]; simp, Or.inl ⟨rfl, hho, rfl, h.2.symm⟩⟩
          · simp at h
        · split at h
          · simp at h
          · rename_i hho
            simp only [Res.ok.injEq, Prod.mk.injEq] at h
            exact ⟨[], by rw [← h.1], Or.inr ⟨rfl, by simpa using hho, rfl, h.2.symm⟩⟩
        · simp at h
      have hmain : ∃ m, ns = ws ++ m ∧ (ws' = [] → (t = .closeCurly ∨ t = .end_)) ∧
          (m = [] ∨ ∃ x m', m = x :: m' ∧ hasTok Tok.isWs x = false ∧ hasTok Tok.isComma x = false) ∧
          (t.isSimple = true → ∃ k, Tok.newline k ∈ tokensList ws) ∧ (∃ u, t :: r = u ++ R) ∧
          ∀ ac keys g, Le (objectLoop env .conf g ho ac keys (t :: r)) (.ok (m, R)) := by
        cases sep with
        | false =>
          obtain ⟨m, k1, k2⟩ := hend rfl
          refine ⟨m, k1, fun _ => ?_, ?_, ?_, ?_, ?_⟩
          · rcases k2 with ⟨k2, _⟩ | ⟨k2, _⟩
            · exact Or.inl k2
            · exact Or.inr k2
          · rcases k2 with ⟨_, _, rfl, _⟩ | ⟨_, _, rfl, _⟩
            · exact Or.inr ⟨_, _, rfl, rfl, rfl⟩
            · exact Or.inl rfl
          · rcases k2 with ⟨rfl, _⟩ | ⟨rfl, _⟩ <;> simp [Tok.isSimple]
          · rcases k2 with ⟨_, _, _, rfl⟩ | ⟨_, _, _, rfl⟩
            · exact ⟨[t], rfl⟩
            · exact ⟨[], rfl⟩
          · intro ac keys g
            cases g with
            | zero => left; rw [objectLoop]
            | succ g =>
              right
              rcases k2 with ⟨rfl, rfl, rfl, rfl⟩ | ⟨rfl, rfl, rfl, rfl⟩ <;>
                simp [objectLoop, nextCollect, nextToken, collectNode, Tok.isEnd]
        | true =>
          simp only [if_true] at h
          rw [Res.bind_eq_ok] at h
          obtain ⟨⟨n3, R3⟩, h3, h⟩ := h
          simp only [Res.ok.injEq, Prod.mk.injEq] at h
          obtain ⟨rfl, rfl⟩ := h
          obtain ⟨k, hk'⟩ : ∃ k, Tok.newline k ∈ tokensList ws := by
            rcases hb rfl with hb | hb
            · cases hb
            · exact hb
          refine ⟨n3, rfl, ?_, ?_, fun _ => ⟨k, hk'⟩,
            ((spec_all env .conf true f).obj _ _ _ _ _ _ h3 (by rw [e1] at hg; exact hg.suffix)).suffix, ?_⟩
          · rintro rfl
            exfalso
            rw [g3, List.append_nil, tokensList_single] at hk'
            rcases g1 with rfl | ⟨s, l, rfl⟩ <;> simp at hk'
          · obtain ⟨wa, ta, ra, m, d1, d2, d3⟩ := objectLoop_head h3
            rw [nextCollect] at d1
            simp only [nextToken, Res.ok_bind, q1, Res.ok.injEq, Prod.mk.injEq] at d1
            obtain ⟨rfl, _, _⟩ := d1
            rw [d2]
            exact d3
          · intro ac keys2 g
            exact ok_of_step (x := fun g => objectLoop env .conf g ho ac keys2 (t :: r)) (f := f)
              (fun f => (mono_all env .conf f).obj _ _ _ _) (by rw [(keys_free env f).1 ho ac true keys2 keys]; exact h3) g
      obtain ⟨m, m1, m2, m3, m3', ⟨um, hum⟩, m4⟩ := hmain
      have hfin : ws' ++ m = [] ∨ ∃ x m', ws' ++ m = x :: m' ∧ hasTok Tok.isWs x = false ∧ hasTok Tok.isComma x = false := by
        rcases g5 with rfl | ⟨x, m', rfl, k7, k8⟩
        · exact m3
        · exact Or.inr ⟨x, m' ++ m, rfl, k7, k8⟩
      have hdrop : dropSep ns = ws' ++ m := by
        rw [m1, g3, List.append_assoc, dropSep_gap g1, dropSep_stop hfin]
      obtain ⟨e4, _, _⟩ := nextCollect_spec g4
      refine ⟨w, T', g2, Or.inr ⟨g1, ?_⟩, by rw [hdrop, m1, g3]; simp, ⟨tokensList ws' ++ um, by rw [e4, hum]; simp⟩, ?_⟩
      · obtain ⟨y, ry, hy1, hy2⟩ := g6
        refine ⟨y, ry, hy1, ?_⟩
        cases ws' with
        | nil =>
          simp only [tokensList, List.nil_append] at e4
          rw [hy1] at e4
          simp only [List.cons.injEq] at e4
          rcases m2 rfl with h | h
          · right; right; left; rw [e4.1, h]
          · right; right; right; rw [e4.1, h]
        | cons x ws'' =>
          rw [hy1, nextCollect, Res.bind_eq_ok] at g4
          obtain ⟨_, _, g4⟩ := g4
          split at g4
          · rename_i n hn
            cases y with
            | newline k => exact Or.inl ⟨k, rfl⟩
            | comment d c k => exact Or.inr (Or.inl ⟨d, c, k, rfl⟩)
            | ws s l => exact absurd rfl (hy2 s l)
            | unquoted s l =>
              exfalso
              rw [Res.bind_eq_ok] at g4
              obtain ⟨⟨na, ta, ra⟩, g7, g8⟩ := g4
              simp only [Res.ok.injEq, Prod.mk.injEq, List.cons.injEq] at g8
              obtain ⟨⟨rfl, rfl⟩, rfl, rfl⟩ := g8
              simp only [collectNode] at hn
              split at hn
              · rename_i hu
                rw [g2, hy1] at hc
                have hc2 : ∃ b', Chain b' (Tok.unquoted s l :: ry) := hc.at
                obtain ⟨b', hc2⟩ := hc2
                obtain ⟨_, z, zs, hz, hz2, hz3⟩ := hc2.1 hu
                have hcz : collectNode z = none := by
                  cases z <;> simp [Tok.isSimple] at hz2 <;> simp [collectNode, hz3]
                rw [hz, nextCollect] at g7
                simp only [nextToken, Res.ok_bind, hcz, Res.ok.injEq, Prod.mk.injEq] at g7
                obtain ⟨rfl, rfl, rfl⟩ := g7
                obtain ⟨k, hk'⟩ := m3' hz2
                simp only [Option.some.injEq] at hn
                rw [g3, tokensList_append, tokensList_single, ← hn] at hk'
                rcases g1 with rfl | ⟨s, l, rfl⟩ <;> simp [tokensList, tokens] at hk'
              · cases hn
            | _ => simp [collectNode] at hn
          · simp at g4
      · intro ac keys2 g
        rw [hdrop, e4, objectLoop_front g4]
        exact (m4 ac keys2 g).ok_bind (.refl _)

/-- One field is taken out, with the blanks and commas behind it. -/
inductive Cut : List Node → List Node → Prop
  | skip {ns ns' : List Node} (n : Node) (h : Cut ns ns') : Cut (n :: ns) (n :: ns')
  | here {cs b : List Node} (h : CommaOk b) : Cut (.field cs :: b) (dropSep b)
  | inside {fa fb b ocs ocs' : List Node} (h : Cut ocs ocs') :
      Cut (.field (fa ++ .object ocs :: fb) :: b) (.field (fa ++ .object ocs' :: fb) :: b)

theorem Cut.plain {ws ns X : List Node} (h : Cut (ws ++ ns) X) (hw : ∀ n ∈ ws, Plain n) :
    ∃ ns', X = ws ++ ns' ∧ Cut ns ns' := by
  induction ws generalizing X with
  | nil => exact ⟨X, rfl, h⟩
  | cons n ws ih =>
    obtain ⟨t, hn⟩ := hw n (by simp)
    rw [List.cons_append] at h
    cases h with
    | skip _ h =>
      obtain ⟨ns', rfl, h'⟩ := ih h (fun m hm => hw m (by simp [hm]))
      exact ⟨ns', rfl, h'⟩
    | here _ => rcases hn with hn | ⟨hn, _⟩ <;> cases hn
    | inside _ => rcases hn with hn | ⟨hn, _⟩ <;> cases hn

theorem Cut.nil {X : List Node} (h : Cut [] X) : False := by cases h

/-- What stands before a removed field. -/
def Edge (TA : List Tok) : Prop :=
  ∃ a p w, TA = a ++ p :: w ∧ Gap w ∧ ((∃ k, p = .newline k) ∨ p = .comma ∨ p = .openCurly)

theorem Edge.front {TA : List Tok} (a : List Tok) (h : Edge TA) : Edge (a ++ TA) := by
  obtain ⟨b, p, w, rfl, h⟩ := h
  exact ⟨a ++ b, p, w, by simp, h⟩

/-- The tokens of a document around a removed field. -/
structure Parts (T R ns ns' TA Td TE : List Tok) : Prop where
  eq : T = TA ++ (Td ++ TE)
  rest : ∃ TE1, TE = TE1 ++ R
  drop : ∃ t Tf D, Td = t :: (Tf ++ D) ∧ t.isSimple = true ∧ isUnquotedWs t = false ∧ EndsHard (t :: Tf) ∧ Dropped D TE
  len : (Tok.textList ns).length ≤ (Tok.textList ns').length + (Tok.textList Td).length

theorem parseField_key {env : Env} {f : Nat} {t : Tok} {toks : List Tok} {p : Path} {n : Node} {R : List Tok}
    (h : parseField env .conf f t toks = .ok (p, n, R)) : t.isSimple = true := by
  cases f with
  | zero => simp [parseField] at h
  | succ f =>
    rw [parseField, Res.bind_eq_ok] at h
    obtain ⟨⟨p1, pt, ts1⟩, h1, h⟩ := h
    cases t <;> first | rfl | simp [parseKey, keyRun] at h1

/-- The value of a field is its only one. -/
theorem parseField_value {env : Env} {f : Nat} {t : Tok} {toks : List Tok} {p : Path} {fa : List Node} {v : Node}
    {R : List Tok} (h : parseField env .conf f t toks = .ok (p, .field (fa ++ [v]), R)) (hg : Good env true (t :: toks)) :
    ∀ n ∈ fa, n.isValue = false := by
  have hpl : ∀ n, Plain n → n.isValue = false := by
    rintro n ⟨t, rfl | ⟨rfl, _⟩⟩ <;> rfl
  cases f with
  | zero => simp [parseField] at h
  | succ f =>
  rw [parseField, Res.bind_eq_ok] at h
  obtain ⟨⟨p1, pt, ts1⟩, h1, h⟩ := h
  obtain ⟨Tk, x, r, rfl, rfl, hkey⟩ := parseKey_swap h1
  rw [Res.bind_eq_ok] at h
  obtain ⟨⟨ws, ak, ts2⟩, h2, h⟩ := h
  obtain ⟨e2, p2, hak⟩ := nextCollect_spec h2
  have hg2 : Good env true (ak :: ts2) := by
    have e : t :: (Tk ++ x :: r) = (t :: Tk ++ tokensList ws) ++ ak :: ts2 := by simp only [e2]; simp
    rw [e] at hg
    exact hg.suffix
  simp only at h
  split at h
  · rw [Res.bind_eq_ok] at h
    obtain ⟨⟨v2, ts3⟩, h3, h⟩ := h
    simp only [Res.ok.injEq, Prod.mk.injEq, Node.field.injEq] at h
    have e : (.path p1 pt :: ws) ++ [v2] = fa ++ [v] := h.2.1
    obtain rfl := (List.append_inj' e rfl).1
    intro n hn
    rcases List.mem_cons.1 hn with rfl | hn
    · rfl
    · exact hpl n (p2 n hn)
  · split at h
    · rw [Res.bind_eq_ok] at h
      obtain ⟨⟨ws2, v2, ts3⟩, h3, h⟩ := h
      simp only [Res.ok.injEq, Prod.mk.injEq, Node.field.injEq] at h
      have e : (.path p1 pt :: ws ++ .single ak :: ws2) ++ [v2] = fa ++ [v] := by rw [← h.2.1]
      obtain rfl := (List.append_inj' e rfl).1
      obtain ⟨⟨_, _, hn2⟩, _⟩ := fieldVal_cut h3 hg2.tail
      intro n hn
      simp only [List.cons_append, List.mem_cons, List.mem_append] at hn
      rcases hn with rfl | hn | rfl | hn
      · rfl
      · exact hpl n (p2 n hn)
      · rfl
      · exact hpl n ((nextCollect_spec hn2).2.1 n hn)
    · simp at h

theorem only_value {fa fx fb : List Node} {v o : Node} (h : fx ++ o :: fb = fa ++ [v]) (hfa : ∀ n ∈ fa, n.isValue = false)
    (ho : o.isValue = true) : fa = fx ∧ v = o ∧ fb = [] := by
  rcases List.eq_nil_or_concat fb with rfl | ⟨x, y, rfl⟩
  · have := List.append_inj' h rfl
    exact ⟨this.1.symm, by simpa using this.2.symm, rfl⟩
  · exfalso
    have e : (fx ++ o :: x) ++ [y] = fa ++ [v] := by rw [← h]; simp
    have := (List.append_inj' e rfl).1
    have hn := hfa o (by rw [← this]; simp)
    rw [ho] at hn
    cases hn

theorem simple_starts {t : Tok} (h : t.isSimple = true) : startsValue t = true := by
  cases t <;> simp [Tok.isSimple] at h <;> rfl

theorem compat_rm (TA : List Tok) {t : Tok} (ht : t.isSimple = true) (X TE : List Tok) :
    Compat (TA ++ t :: X) (TA ++ TE) := by
  intro w t' r e hw hn hs
  have hne : t ≠ t' := by
    rintro rfl
    rw [simple_starts ht] at hs
    cases hs
  have hns : ∀ s l, t ≠ .ws s l := by rintro s l rfl; simp [Tok.isSimple] at ht
  rcases hw with rfl | ⟨s, l, rfl⟩
  · cases TA with
    | nil => simp at e; exact absurd e.1 hne
    | cons x TA => simp at e; exact ⟨TA ++ TE, by simp [e.1]⟩
  · cases TA with
    | nil => simp at e; exact absurd e.1 (hns _ _)
    | cons x TA =>
      simp at e
      cases TA with
      | nil => simp at e; exact absurd e.2.1 hne
      | cons y TA => simp at e; exact ⟨TA ++ TE, by simp [e.1, e.2.1]⟩

theorem obj_remove (env : Env) (f : Nat) :
    (∀ ho ac keys T ns R ns', objectLoop env .conf f ho ac keys T = .ok (ns, R) → Good env true T → Chain false T →
      Cut ns ns' → ∃ TA Td TE, Parts T R (tokensList ns) (tokensList ns') TA Td TE ∧ (Gap TA ∨ Edge TA) ∧
        ∀ ac keys g, Le (objectLoop env .conf g ho ac keys (TA ++ TE)) (.ok (ns', R))) ∧
    (∀ ho keys T ns R ns' b, objectSep env .conf f ho keys T = .ok (ns, R) → Good env true T → Chain b T →
      Cut ns ns' → ∃ TA Td TE, Parts T R (tokensList ns) (tokensList ns') TA Td TE ∧ Edge TA ∧
        ∀ keys g, Le (objectSep env .conf g ho keys (TA ++ TE)) (.ok (ns', R))) := by
  induction f using Nat.strongRecOn with
  | ind f ih =>
  cases f with
  | zero => constructor <;> intros <;> simp_all [objectLoop, objectSep]
  | succ f =>
  have sp := spec_all env .conf true f
  constructor
  · intro ho ac keys T ns R ns' h hg hch hcut
    rw [objectLoop, Res.bind_eq_ok] at h
    obtain ⟨⟨ws, t, ts1⟩, h1, h⟩ := h
    obtain ⟨e1, p1, hc1⟩ := nextCollect_spec h1
    have hg1 : Good env true (t :: ts1) := by rw [e1] at hg; exact hg.suffix
    simp only at h
    split at h
    · exfalso
      rw [if_neg (by simp)] at h
      split at h
      · simp at h
      simp only [Res.ok.injEq, Prod.mk.injEq] at h
      obtain ⟨rfl, _⟩ := h
      obtain ⟨_, _, h'⟩ := Cut.plain hcut p1
      obtain ⟨_, _, h'⟩ := Cut.plain (ws := [.single .closeCurly]) (ns := []) h' (by simp [Plain])
      exact h'.nil
    · rename_i hnc
      split at h
      · exfalso
        simp only [Res.ok.injEq, Prod.mk.injEq] at h
        obtain ⟨rfl, _⟩ := h
        obtain ⟨_, _, h'⟩ := Cut.plain (ns := []) (by simpa using hcut) p1
        exact h'.nil
      · rename_i hend
        split at h
        · rename_i hinc
          rw [Res.bind_eq_ok] at h
          obtain ⟨⟨inc, ts2⟩, h2, h⟩ := h
          rw [Res.bind_eq_ok] at h
          obtain ⟨⟨n2, ts3⟩, h3, h⟩ := h
          simp only [Res.ok.injEq, Prod.mk.injEq] at h
          obtain ⟨rfl, rfl⟩ := h
          obtain ⟨X, rfl, h'⟩ := Cut.plain hcut p1
          have hni := parseInclude_node h2
          obtain ⟨U1, u1, _, u2⟩ := parseInclude_local h2
          have hg2 : Good env true ts2 := by rw [u1] at hg1; exact hg1.tail.suffix
          obtain ⟨b2, hch2⟩ : ∃ b, Chain b ts2 := by
            rw [e1, u1] at hch
            have e : tokensList ws ++ t :: (U1 ++ ts2) = (tokensList ws ++ t :: U1) ++ ts2 := by simp
            rw [e] at hch
            exact hch.at
          generalize hI : inc = F at h'
          cases h' with
          | here _ => exact absurd hI (hni _)
          | inside _ => exact absurd hI (hni _)
          | @skip _ n2' _ h' =>
            subst hI
            obtain ⟨TA, Td, TE, ⟨k1, k2, k3, k4⟩, k5, k6⟩ := (ih f (by omega)).2 _ _ _ _ _ _ _ h3 hg2 hch2 h'
            change ts2 = _ at k1
            refine ⟨tokensList ws ++ t :: (U1 ++ TA), Td, TE, ⟨?_, k2, k3, ?_⟩, Or.inr ?_, ?_⟩
            · rw [e1, u1, k1]; simp
            · simp only [tokensList_append, tokensList, Tok.textList_append, List.length_append]
              omega
            · have := k5.front (tokensList ws ++ t :: U1)
              simpa using this
            · intro ac keys g
              have e : tokensList ws ++ t :: (U1 ++ TA) ++ TE = tokensList ws ++ t :: (U1 ++ (TA ++ TE)) := by simp
              rw [e]
              cases g with
              | zero => left; rw [objectLoop]
              | succ g =>
                rw [objectLoop, nextCollect_swap h1 hc1]
                simp only [Res.ok_bind]
                rw [if_neg hend, if_pos hinc, u2]
                simp only [Res.ok_bind]
                exact (k6 keys g).ok_bind (.refl _)
        · rename_i hinc
          rw [Res.bind_eq_ok] at h
          obtain ⟨⟨p, fld, ts2⟩, h2, h⟩ := h
          rw [Res.bind_eq_ok] at h
          obtain ⟨keys', hk, h⟩ := h
          rw [Res.bind_eq_ok] at h
          obtain ⟨⟨n2, ts3⟩, h3, h⟩ := h
          simp only [Res.ok.injEq, Prod.mk.injEq] at h
          obtain ⟨rfl, rfl⟩ := h
          obtain ⟨X, rfl, h'⟩ := Cut.plain hcut p1
          have hp := (sp.field _ _ _ _ _ h2 hg1).2.2
          obtain ⟨used, hu2, husub, _⟩ := (sp.field _ _ _ _ _ h2 hg1).1
          have hg2 : Good env true ts2 := by rw [hu2] at hg1; exact hg1.suffix
          obtain ⟨TB1, hTB1⟩ : ∃ u, ts2 = u ++ ts3 := (sp.sep _ _ _ _ _ h3 hg2).suffix
          obtain ⟨b1, hch1⟩ : ∃ b, Chain b (t :: ts1) := by rw [e1] at hch; exact hch.at
          obtain ⟨b2, hch2⟩ : ∃ b, Chain b ts2 := by rw [hu2] at hch1; exact hch1.at
          have hts := parseField_key h2
          have htu : isUnquotedWs t = false := by
            cases t <;> first | rfl | (simp only [collectNode] at hc1; split at hc1 <;> simp_all)
          have hedge : Gap (tokensList ws) ∨ Edge (tokensList ws) := by
            rcases collect_edge h1 hch hg.adj hts with k | ⟨a, k, w, k1, k2⟩ | ⟨k, _⟩
            · exact Or.inl k
            · exact Or.inr ⟨a, _, w, k1, k2, Or.inl ⟨_, rfl⟩⟩
            · cases k
          -- the loop on a text with another field or tail
          have hloop : ∀ toks' ts2' fld' n2', (∀ g, Le (parseField env .conf g t toks') (.ok (p, fld', ts2'))) →
              (∀ keys g, Le (objectSep env .conf g ho keys ts2') (.ok (n2', ts3))) →
              ∀ ac keys g, Le (objectLoop env .conf g ho ac keys (tokensList ws ++ t :: toks'))
                (.ok (ws ++ fld' :: n2', ts3)) := by
            intro toks' ts2' fld' n2' hf hs ac keys g
            cases g with
            | zero => left; rw [objectLoop]
            | succ g =>
              rw [objectLoop, nextCollect_swap h1 hc1]
              simp only [Res.ok_bind]
              rw [if_neg hend, if_neg hinc]
              refine (hf g).ok_bind ?_
              simp only
              cases p with
              | nil => exact absurd rfl hp
              | cons k p =>
                simp only [addKey, Res.ok_bind]
                exact (hs _ g).ok_bind (.refl _)
          have hsame : ∀ keys g, Le (objectSep env .conf g ho keys ts2) (.ok (n2, ts3)) := by
            intro keys g
            exact ok_of_step (x := fun g => objectSep env .conf g ho keys ts2)
              (fun f => (mono_all env .conf f).sep _ _ _) (by rw [(keys_free env f).2 ho keys keys']; exact h3) g
          obtain ⟨fa, v0, Tf, To, hfld, hv0, htoks, hEH, hsep, hobj⟩ := parseField_cut h2 hg1
          subst hfld
          have hfieq : ∀ (fx fb : List Node) (x : List Node), Node.field (fx ++ .object x :: fb) = Node.field (fa ++ [v0]) →
              fa = fx ∧ v0 = .object x ∧ fb = [] := by
            intro fx fb x hx
            simp only [Node.field.injEq] at hx
            exact only_value hx (parseField_value h2 hg1) rfl
          generalize hF : Node.field (fa ++ [v0]) = F at h' husub ⊢
          cases h' with
          | @skip _ n2' _ h' =>
            obtain ⟨U1, u1, u2⟩ := (local_all env f).field _ _ _ _ _ h2 hg1
            change ts1 = U1 ++ ts2 at u1
            obtain ⟨TA, Td, TE, ⟨k1, k2, k3, k4⟩, k5, k6⟩ := (ih f (by omega)).2 _ _ _ _ _ _ _ h3 hg2 hch2 h'
            change ts2 = _ at k1
            refine ⟨tokensList ws ++ t :: (U1 ++ TA), Td, TE, ⟨?_, k2, k3, ?_⟩, Or.inr ?_, ?_⟩
            · rw [e1, u1, k1]; simp
            · simp only [tokensList_append, tokensList, Tok.textList_append, List.length_append]
              omega
            · have := k5.front (tokensList ws ++ t :: U1)
              simpa using this
            · have e : tokensList ws ++ t :: (U1 ++ TA) ++ TE = tokensList ws ++ t :: (U1 ++ (TA ++ TE)) := by simp
              rw [e]
              have hcomp : Compat ts2 (TA ++ TE) := by
                obtain ⟨tk, Tfk, Dk, rfl, htk, _⟩ := k3
                rw [k1]
                exact compat_rm TA htk _ _
              refine hloop _ _ _ _ (fun g => ?_) k6
              rw [← hF]
              exact ok_of_step (x := fun g => parseField env .conf g t (U1 ++ (TA ++ TE)))
                (fun f => (mono_all env .conf f).field _ _) (u2 _ hcomp) g
          | @here fx b hco =>
            obtain ⟨D, TE, d1, d2, d3, d5, d4⟩ := objectSep_drop h3 hg2 hch2 hco
            obtain ⟨ux, Du, hux⟩ : ∃ u x, t :: (Tf ++ To) = u ++ [x] ∧ Hard x := by
              obtain ⟨a, x, hx, hh⟩ := hEH
              exact ⟨t :: (Tf ++ a), x, by rw [hx]; simp, hh⟩
            have hused : used = t :: (Tf ++ To) := by
              rw [htoks] at hu2
              have e : t :: (Tf ++ (To ++ ts2)) = t :: (Tf ++ To) ++ ts2 := by simp
              rw [e] at hu2
              exact (List.append_cancel_right hu2).symm
            refine ⟨tokensList ws, t :: (Tf ++ To ++ D), TE, ⟨?_, ?_, ⟨t, Tf ++ To, D, rfl, hts, htu, ⟨ux, Du, hux⟩, d2⟩, ?_⟩,
              hedge, ?_⟩
            · rw [e1, htoks]
              change ts2 = _ at d1
              rw [d1]
              simp
            · exact d5
            · have h5 := husub.length_le
              rw [hused] at h5
              have h6 := congrArg (fun x => (Tok.textList (tokensList x)).length) d3
              simp only [tokensList_append, tokensList_single, tokensList, Tok.textList_append, List.length_append,
                Tok.textList, List.append_nil] at h5 h6 ⊢
              omega
            · intro ac keys g
              rw [objectLoop_front h1]
              exact (d4 ac keys g).ok_bind (.refl _)
          | @inside fx fb b ocs ocs' hin =>
            obtain ⟨e5, rfl, rfl⟩ := hfieq _ _ _ hF.symm
            obtain ⟨To', f', os, g1, g2, gf, g3, g4⟩ := hobj ocs rfl
            subst e5 g2
            have e : t :: (Tf ++ (.openCurly :: To' ++ ts2)) = (t :: Tf) ++ .openCurly :: (To' ++ ts2) := by simp
            have hgi : Good env true (To' ++ ts2) := by
              rw [htoks, g1, e] at hg1
              exact hg1.suffix.tail
            have hci : Chain false (To' ++ ts2) := by
              rw [htoks, g1, e] at hch1
              exact hch1.suffix
            cases hin with
            | @skip _ os' _ hin =>
              obtain ⟨TA, Td, TE, ⟨k1, ⟨TEx, k2⟩, k3, k4⟩, k5, k6⟩ := (ih f' (by omega)).1 _ _ _ _ _ _ _ g3 hgi hci hin
              refine ⟨tokensList ws ++ t :: (Tf ++ .openCurly :: TA), Td, TE,
                ⟨?_, ⟨TEx ++ TB1, by rw [k2, hTB1]; simp⟩, k3, ?_⟩, Or.inr ?_, ?_⟩
              · rw [e1, htoks, g1, List.cons_append, k1]; simp
              · simp only [tokensList_append, tokensList, tokens, Tok.textList_append, List.length_append, Tok.textList] at k4 ⊢
                omega
              · have e2 : tokensList ws ++ t :: (Tf ++ .openCurly :: TA) = (tokensList ws ++ t :: Tf) ++ .openCurly :: TA := by
                  simp
                rw [e2]
                rcases k5 with k5 | k5
                · exact ⟨_, _, _, rfl, k5, Or.inr (Or.inr rfl)⟩
                · have := k5.front (tokensList ws ++ t :: Tf ++ [.openCurly])
                  simpa using this
              · have hi : ∀ g, Le (objectLoop env .conf g true false [] ((TA ++ TEx) ++ ts2)) (.ok (os', ts2)) := by
                  intro g
                  have := k6 false [] g
                  rw [k2] at this
                  simpa using this
                have := hloop _ ts2 _ n2 (g4 _ os' hi) hsame
                rw [k2]
                simpa using this
  · intro ho keys T ns R ns' b h hg hch hcut
    rw [objectSep, Res.bind_eq_ok] at h
    obtain ⟨⟨ws, sep0, ts1⟩, h1, h⟩ := h
    rw [checkSep] at h1
    obtain ⟨e1, p1⟩ := sepLoop_spec h1
    have hg1 : Good env true ts1 := by rw [e1] at hg; exact hg.suffix
    simp only at h
    split at h
    · rename_i hb
      rw [Res.bind_eq_ok] at h
      obtain ⟨⟨n2, ts3⟩, h3, h⟩ := h
      simp only [Res.ok.injEq, Prod.mk.injEq] at h
      obtain ⟨rfl, rfl⟩ := h
      obtain ⟨X, rfl, h'⟩ := Cut.plain hcut p1
      obtain ⟨ns0, t0, r0, c1, c2⟩ := sepLoop_collect h1
      obtain ⟨f1, f2, f3⟩ := nextCollect_spec c1
      have hch1 : Chain false ts1 := by
        rw [f1] at hch
        rcases c2 with ⟨rfl, _, _, rfl⟩ | ⟨_, _, rfl, _⟩
        · exact hch.suffix (p := .comma)
        · obtain ⟨b', hb'⟩ := hch.at
          refine hb'.flag ?_ false
          cases t0 <;> first | rfl | (simp only [collectNode] at f3; split at f3 <;> simp_all)
      obtain ⟨TA, Td, TE, ⟨k1, k2, k3, k4⟩, k5, k6⟩ := (ih f (by omega)).1 _ _ _ _ _ _ _ h3 hg1 hch1 h'
      change ts1 = _ at k1
      refine ⟨tokensList ws ++ TA, Td, TE, ⟨?_, k2, k3, ?_⟩, ?_, ?_⟩
      · rw [e1, k1]; simp
      · simp only [tokensList_append, Tok.textList_append, List.length_append] at k4 ⊢
        omega
      · rcases k5 with k5 | k5
        · rcases c2 with ⟨rfl, rfl, _, rfl⟩ | ⟨_, rfl, rfl, hnl⟩
          · exact ⟨tokensList ns0, .comma, TA, by simp [tokensList_append, tokensList, tokens], k5, Or.inr (Or.inl rfl)⟩
          · have hTA : TA = [] := by
              rcases k5 with k5 | ⟨s, l, rfl⟩
              · exact k5
              · simp at k1
                rw [k1.1] at f3
                simp [collectNode] at f3
            subst hTA
            obtain ⟨tk, Tfk, Dk, rfl, htk, _⟩ := k3
            simp at k1
            have hsimple : t0.isSimple = true := by rw [k1.1]; exact htk
            obtain ⟨k, hk⟩ : ∃ k, Tok.newline k ∈ tokensList ws := by
              rcases hnl hb with hx | hx
              · cases hx
              · exact hx
            rcases collect_edge c1 hch hg.adj hsimple with k | ⟨a, k, w, k1, k2⟩ | ⟨_, x, k, hx⟩
            · exfalso
              rcases k with k | ⟨s, l, k⟩ <;> rw [k] at hk <;> simp at hk
            · exact ⟨a, .newline k, w, by rw [k1]; simp, k2, Or.inl ⟨_, rfl⟩⟩
            · rw [hx] at hk; simp at hk
        · exact k5.front _
      · intro keys g
        cases g with
        | zero => left; rw [objectSep]
        | succ g =>
          rw [List.append_assoc, objectSep, checkSep]
          rcases c2 with ⟨rfl, rfl, _, rfl⟩ | ⟨_, rfl, rfl, hnl⟩
          · have hsw : sepLoop false (tokensList (ns0 ++ [.single .comma]) ++ (TA ++ TE))
                = .ok (ns0 ++ [.single .comma], true, TA ++ TE) := by
              rw [tokensList_append, List.append_assoc, sepLoop_front c1]
              simp [tokensList, tokens, sepLoop, bind, Res.bind]
            rw [hsw]
            simp only [Res.ok_bind, if_true]
            exact (k6 true keys g).ok_bind (.refl _)
          · obtain ⟨wa, ta, ra, y1, y2⟩ := le_head k6
            have hsw : sepLoop false (tokensList ws ++ (TA ++ TE)) = .ok (ws ++ wa, true, ta :: ra) := by
              rw [sepLoop_front c1]
              have : (false || sawLine ws) = true := by
                rcases hnl hb with hx | hx
                · cases hx
                · exact sawLine_of f2 hx
              rw [this]
              rw [sepLoop_true y1 y2]
              rfl
            rw [hsw]
            simp only [Res.ok_bind, if_true]
            have := k6 true keys g
            rw [(nextCollect_spec y1).1, objectLoop_front y1] at this
            rcases hx : objectLoop env .conf g ho true keys (ta :: ra) with x | e | _ | _
            · rw [hx] at this
              simp only [Res.ok_bind] at this ⊢
              rcases this with this | this
              · cases this
              · simp only [Res.ok.injEq, Prod.mk.injEq] at this
                right
                rw [← this.1, ← this.2]
                simp
            all_goals
              rw [hx] at this
              rcases this with this | this
              · first | (cases this; done) | exact .fuel _
              · cases this
    · rename_i hb
      exfalso
      rw [Res.bind_eq_ok] at h
      obtain ⟨⟨ws2, t, ts2⟩, h2, h⟩ := h
      obtain ⟨e2, p2, c2⟩ := nextCollect_spec h2
      simp only at h
      split at h
      · split at h
        · simp only [Res.ok.injEq, Prod.mk.injEq] at h
          obtain ⟨rfl, _⟩ := h
          rw [List.append_assoc] at hcut
          obtain ⟨_, _, h'⟩ := Cut.plain hcut p1
          obtain ⟨_, _, h'⟩ := Cut.plain h' p2
          obtain ⟨_, _, h'⟩ := Cut.plain (ws := [.single .closeCurly]) (ns := []) h' (by simp [Plain])
          exact h'.nil
        · simp at h
      · split at h
        · simp at h
        · simp only [Res.ok.injEq, Prod.mk.injEq] at h
          obtain ⟨rfl, _⟩ := h
          obtain ⟨_, _, h'⟩ := Cut.plain hcut p1
          obtain ⟨_, _, h'⟩ := Cut.plain (ns := []) (by simpa using h') p2
          exact h'.nil
      · simp at h

end DocParser
end Hocon
