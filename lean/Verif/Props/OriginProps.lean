import Verif.Origin

/-!
# Origins: C45, C53, C55
-/

set_option autoImplicit false

namespace Hocon
namespace Origin

/-- `m` has exactly the comment lines of the origins in `os` (repetitions aside). -/
def SameComments (m : Origin) (os : List Origin) : Prop :=
  ∀ c, c ∈ m.comments ↔ ∃ o ∈ os, c ∈ o.comments

theorem mergeTwo_comments (a b : Origin) (c : Str) :
    c ∈ (mergeTwo a b).comments ↔ c ∈ a.comments ∨ c ∈ b.comments := by
  show c ∈ mergeComments a b ↔ _
  unfold mergeComments
  split
  · rename_i h; rw [← h, or_self]
  · exact List.mem_append

theorem mergeThree_comments (a b d : Origin) (c : Str) :
    c ∈ (mergeThree a b d).comments ↔ c ∈ a.comments ∨ c ∈ b.comments ∨ c ∈ d.comments := by
  unfold mergeThree
  split
  · rw [mergeTwo_comments, mergeTwo_comments, or_assoc]
  · rw [mergeTwo_comments, mergeTwo_comments]

theorem mergeLoop_comments (n : Nat) (os : List Origin) (hne : os ≠ []) (hn : os.length ≤ n + 2) :
    ∃ m, mergeLoop n (os.map some) = .ok (some m) ∧ SameComments m os := by
  induction n generalizing os with
  | zero =>
    match os, hne, hn with
    | [a], _, _ => exact ⟨a, rfl, fun c => by simp⟩
    | [b, a], _, _ => exact ⟨mergeTwo a b, rfl, fun c => by rw [mergeTwo_comments]; simp [or_comm]⟩
  | succ n ih =>
    match os, hne, hn with
    | [a], _, _ => exact ⟨a, rfl, fun c => by simp⟩
    | [b, a], _, _ => exact ⟨mergeTwo a b, rfl, fun c => by rw [mergeTwo_comments]; simp [or_comm]⟩
    | d :: b :: a :: r, _, hn =>
      obtain ⟨m, h1, h2⟩ := ih (mergeThree a b d :: r) (by simp) (by simp at hn ⊢; omega)
      refine ⟨m, h1, fun c => ?_⟩
      rw [h2 c]
      simp only [List.mem_cons, exists_eq_or_imp, mergeThree_comments]
      constructor
      · rintro ((h | h | h) | h)
        · exact .inr (.inr (.inl h))
        · exact .inr (.inl h)
        · exact .inl h
        · exact .inr (.inr (.inr h))
      · rintro (h | h | h | h)
        · exact .inl (.inr (.inr h))
        · exact .inl (.inr (.inl h))
        · exact .inl (.inl h)
        · exact .inr h

/-- **C45.** Merging any non-empty list of origins succeeds, and the comment lines of the result are
exactly the comment lines of the inputs: none is lost, none is invented. -/
theorem C45_comments (os : List Origin) (h : os ≠ []) :
    ∃ m, mergeOrigins (os.map some) = .ok (some m) ∧ SameComments m os := by
  unfold mergeOrigins
  rw [← List.map_reverse, List.length_map]
  obtain ⟨m, h1, h2⟩ := mergeLoop_comments os.length os.reverse (by simpa using h) (by simp)
  exact ⟨m, h1, fun c => by rw [h2 c]; simp⟩

/-- **C45.** An empty list is refused with an exception. -/
theorem C45_empty : mergeOrigins [] = .err .config := rfl

/-- **C45.** The comments keep their order: those of the first origin come first. -/
theorem C45_order (a b : Origin) (h : a.comments ≠ b.comments) :
    (mergeTwo a b).comments = a.comments ++ b.comments := by
  show mergeComments a b = _
  unfold mergeComments
  rw [if_neg h]

/-- **C45 (note).** Values made by `from_any_ref` have no origin inside; merging the origins of several
values one of which has none dereferences a null pointer. -/
theorem C45_missing_origin_undefined (a : Origin) :
    mergeOrigins [some a, none] = .ub ∧ mergeOrigins [none, some a] = .ub := ⟨rfl, rfl⟩

/-- Origins as the tokenizer makes them: in one file, one line each. -/
def at' (n : Int) (c : List Str) : Origin := ⟨ch "f", n, n, .generic, [], c⟩

example : mergeOrigins [some (at' 1 [ch "x"]), some (at' 2 []), some (at' 3 [ch "y", ch "z"])] =
    .ok (some ⟨ch "f", 2, 3, .generic, [], [ch "x", ch "y", ch "z"]⟩) := by decide

/-! ## C53: line numbers -/

/-- **C53 (partial).** Two origins on single lines of the same file: the merged origin starts at the
smaller line. Missing: origins that already span several lines, see `C53_first_line_lost`. -/
theorem C53_first_line_partial (a b : Origin) (hd : a.bareDesc = b.bareDesc)
    (ha : 0 ≤ a.line) (hb : 0 ≤ b.line) (ea : a.endLine = a.line) (eb : b.endLine = b.line) :
    (mergeTwo a b).line = min a.line b.line ∧ (mergeTwo a b).endLine = max a.line b.line := by
  constructor
  · show (if a.bareDesc = b.bareDesc then startLine a b else -1) = _
    rw [if_pos hd]
    unfold startLine
    rw [if_neg (by omega), if_neg (by omega), ea, eb]
  · show (if a.bareDesc = b.bareDesc then max a.endLine b.endLine else -1) = _
    rw [if_pos hd, ea, eb]

/-- **C53 (partial).** If the line of one of two origins of the same file is not known, the merged
origin has the line of the other. -/
theorem C53_unknown_line_partial (a b : Origin) (hd : a.bareDesc = b.bareDesc) :
    (a.line < 0 → (mergeTwo a b).line = b.line) ∧
      (0 ≤ a.line → b.line < 0 → (mergeTwo a b).line = a.line) := by
  have e : (mergeTwo a b).line = startLine a b := if_pos hd
  rw [e]
  exact ⟨fun h => if_pos h, fun h h' => (if_neg (by omega)).trans (if_pos h')⟩

example : (mergeTwo (at' (-1) []) (at' 7 [])).line = 7 ∧ (mergeTwo (at' 7 []) (at' (-1) [])).line = 7 := by
  decide

/-- **C53 (violated).** Three values on lines `l1 < l2 < l3` of one file with the same comments: the
merged origin claims to start at line `l2`. -/
theorem C53_first_line_lost (l1 l2 l3 : Int) (h0 : 0 ≤ l1) (h1 : l1 < l2) (h2 : l2 < l3)
    (cs : List Str) : ∃ m, mergeOrigins [some (at' l1 cs), some (at' l2 cs), some (at' l3 cs)] =
      .ok (some m) ∧ m.line = l2 := by
  refine ⟨mergeThree (at' l1 cs) (at' l2 cs) (at' l3 cs), rfl, ?_⟩
  have s : ∀ x y : Int, x < y → similarity (at' x cs) (at' y cs) = 3 := by
    intro x y h
    have : ¬ x = y := by omega
    simp [similarity, at', this]
  unfold mergeThree
  rw [if_pos (by rw [s _ _ h1, s _ _ h2]; exact Nat.le_refl 3)]
  have e := C53_first_line_partial (at' l1 cs) (at' l2 cs) rfl h0 (by show 0 ≤ l2; omega) rfl rfl
  have bd : (mergeTwo (at' l1 cs) (at' l2 cs)).bareDesc = (at' l3 cs).bareDesc := by
    rfl
  have u : ∀ a b : Origin, a.bareDesc = b.bareDesc → (mergeTwo a b).line = startLine a b :=
    fun a b h => if_pos h
  rw [u _ _ bd]
  unfold startLine
  rw [e.1, e.2]
  have m1 : min (at' l1 cs).line (at' l2 cs).line = l1 := by show min l1 l2 = l1; omega
  have m2 : max (at' l1 cs).line (at' l2 cs).line = l2 := by show max l1 l2 = l2; omega
  rw [m1, m2, if_neg (by omega), if_neg (by show ¬ l3 < 0; omega)]
  show min l2 l3 = l2
  omega

/-! ## C98: how the merged origin names the sources -/

theorem bareDesc_plain {o : Origin} (h : ¬ mergeOf <+: o.desc) : o.bareDesc = o.desc := by
  unfold bareDesc
  rw [if_neg]
  rwa [List.isPrefixOf_iff_prefix]

theorem bareDesc_merge {o : Origin} {s : Str} (h : o.desc = mergeOf ++ s) : o.bareDesc = s := by
  unfold bareDesc
  rw [h, if_pos (by rw [List.isPrefixOf_iff_prefix]; exact List.prefix_append _ _), List.drop_left]

theorem mergeTwo_same {a b : Origin} (h : a.bareDesc = b.bareDesc) : (mergeTwo a b).desc = a.bareDesc := if_pos h

theorem mergeTwo_diff {a b : Origin} (h : a.bareDesc ≠ b.bareDesc) :
    (mergeTwo a b).desc = mergeOf ++ (a.bareDesc ++ ch "," ++ b.bareDesc) := by
  show (if a.bareDesc = b.bareDesc then _ else _) = _
  rw [if_neg h]
  simp only [List.append_assoc]

/-- **C98 (partial).** Origins of two sources, two of them from the same source and neighbours: the merged origin names each
source once, whichever lines the two have. Missing: the origin of the other source on the same lines as its neighbour, see
`C98_same_line_violated`. -/
theorem C98_neighbours_partial (g f1 f2 : Origin) (hd : f1.desc = f2.desc) (ht : f1.type = f2.type)
    (hr : f1.resource = f2.resource) (hg : g.desc ≠ f1.desc) (pg : ¬ mergeOf <+: g.desc) (pf : ¬ mergeOf <+: f1.desc) :
    (g.line ≠ f1.line → g.endLine ≠ f1.endLine → ∃ m, mergeOrigins [some g, some f1, some f2] = .ok (some m) ∧
      m.desc = mergeOf ++ (g.desc ++ ch "," ++ f1.desc)) ∧
    (g.line ≠ f2.line ∨ g.endLine ≠ f2.endLine → ∃ m, mergeOrigins [some f1, some f2, some g] = .ok (some m) ∧
      m.desc = mergeOf ++ (f1.desc ++ ch "," ++ g.desc)) := by
  have bg := bareDesc_plain pg
  have b1 := bareDesc_plain pf
  have b2 : f2.bareDesc = f1.desc := (bareDesc_plain (hd ▸ pf)).trans hd.symm
  have hff : (mergeTwo f1 f2).desc = f1.desc := (mergeTwo_same (by rw [b1, b2])).trans b1
  have bff : (mergeTwo f1 f2).bareDesc = f1.desc := (bareDesc_plain (hff ▸ pf)).trans hff
  have s12 : 3 ≤ similarity f1 f2 := by
    simp only [similarity, hd, ht, hr, if_true]
    omega
  constructor
  · intro hl he
    refine ⟨_, rfl, ?_⟩
    have s : similarity g f1 ≤ 2 := by
      simp only [similarity, hl, he, hg, if_false]
      split <;> split <;> omega
    show (mergeThree g f1 f2).desc = _
    rw [mergeThree, if_neg (by omega), mergeTwo_diff (by rw [bg, bff]; exact hg), bg, bff]
  · intro hle
    refine ⟨_, rfl, ?_⟩
    have s : similarity f2 g ≤ 3 := by
      have e : ¬ f2.desc = g.desc := fun e => hg (hd.trans e).symm
      simp only [similarity, e, if_false]
      rcases hle with h | h
      · rw [if_neg (fun e : f2.line = g.line => h e.symm)]
        split <;> split <;> split <;> omega
      · rw [if_neg (fun e : f2.endLine = g.endLine => h e.symm)]
        split <;> split <;> split <;> omega
    show (mergeThree f1 f2 g).desc = _
    rw [mergeThree, if_pos (by omega), mergeTwo_diff (by rw [bg, bff]; exact fun e => hg e.symm), bg, bff]

example : mergeOrigins [some ⟨ch "g", 1, 4, .generic, [], []⟩, some ⟨ch "f", 4, 5, .generic, [], []⟩,
    some ⟨ch "f", 6, 6, .generic, [], []⟩] = .ok (some ⟨ch "merge of g,f", -1, -1, .generic, [], []⟩) := by decide

/-- **C98 (violated).** The lines are compared even if the sources differ: an origin of another source on the same line as
its neighbour is merged with it first, and the source of the other two is named twice. -/
theorem C98_same_line_violated (g f : Str) (l l' : Int) (h : l ≠ l') (hg : g ≠ f) (pg : ¬ mergeOf <+: g) (pf : ¬ mergeOf <+: f) :
    ∃ m, mergeOrigins [some ⟨g, l, l, .generic, [], []⟩, some ⟨f, l, l, .generic, [], []⟩, some ⟨f, l', l', .generic, [], []⟩] =
      .ok (some m) ∧ m.desc = mergeOf ++ (g ++ ch "," ++ f ++ ch "," ++ f) := by
  refine ⟨mergeThree ⟨g, l, l, .generic, [], []⟩ ⟨f, l, l, .generic, [], []⟩ ⟨f, l', l', .generic, [], []⟩, rfl, ?_⟩
  have bg : (⟨g, l, l, .generic, [], []⟩ : Origin).bareDesc = g := bareDesc_plain pg
  have bf : (⟨f, l, l, .generic, [], []⟩ : Origin).bareDesc = f := bareDesc_plain pf
  have bf' : (⟨f, l', l', .generic, [], []⟩ : Origin).bareDesc = f := bareDesc_plain pf
  have hd := mergeTwo_diff (a := ⟨g, l, l, .generic, [], []⟩) (b := ⟨f, l, l, .generic, [], []⟩) (by rw [bg, bf]; exact hg)
  rw [bg, bf] at hd
  have bm := bareDesc_merge hd
  rw [mergeThree, if_pos (by simp [similarity, h, hg]), mergeTwo_diff (by
    rw [bm, bf']
    intro e
    have := congrArg List.length e
    simp at this
    omega), bm, bf']

example : mergeOrigins [some ⟨ch "g", 1, 1, .generic, [], []⟩, some ⟨ch "f", 1, 1, .generic, [], []⟩,
    some ⟨ch "f", 6, 6, .generic, [], []⟩] = .ok (some ⟨ch "merge of g,f,f", -1, -1, .generic, [], []⟩) := by decide

/-! ## C55: changing an origin -/

/-- **C55.** `with_line_number` sets the line and nothing else that can be observed. -/
theorem C55_line_number (o : Origin) (n : Int) :
    (o.withLineNumber n).line = n ∧ (o.withLineNumber n).desc = o.desc ∧
      (o.withLineNumber n).comments = o.comments := by
  unfold withLineNumber
  split
  · rename_i h; exact ⟨h.1.symm, rfl, rfl⟩
  · exact ⟨rfl, rfl, rfl⟩

/-- **C55 (partial).** `with_comments` replaces the comments by the given non-empty list and changes
nothing else. Missing: the empty list, see `C55_comments_not_cleared`. -/
theorem C55_comments_partial (o : Origin) (c : List Str) (h : c ≠ []) :
    (o.withComments c).comments = c ∧ (o.withComments c).line = o.line ∧
      (o.withComments c).desc = o.desc := by
  unfold withComments
  split
  · rename_i h'; exact ⟨(h'.resolve_right h).symm, rfl, rfl⟩
  · exact ⟨rfl, rfl, rfl⟩

/-- **C55 (violated).** `with_comments({})` does not remove comments. -/
theorem C55_comments_not_cleared (o : Origin) : o.withComments [] = o := by
  unfold withComments
  rw [if_pos (.inr rfl)]

/-- **C55.** Appending comments keeps all old ones in front and loses none of the new ones. -/
theorem C55_append (o : Origin) (c : List Str) (x : Str) :
    x ∈ (o.appendComments c).comments ↔ x ∈ o.comments ∨ x ∈ c := by
  unfold appendComments
  split
  · rename_i h; rcases h with rfl | rfl <;> simp
  · exact List.mem_append

/-- **C55.** Prepending comments keeps all old ones and loses none of the new ones. -/
theorem C55_prepend (o : Origin) (c : List Str) (x : Str) :
    x ∈ (o.prependComments c).comments ↔ x ∈ c ∨ x ∈ o.comments := by
  unfold prependComments
  split
  · rename_i h; rcases h with rfl | rfl <;> simp
  · exact List.mem_append

example : ((at' 1 [ch "x"]).withComments []).comments = [ch "x"] := by decide
example : ((at' 1 [ch "x"]).withComments [ch "y"]).comments = [ch "y"] := by decide

end Origin
end Hocon
