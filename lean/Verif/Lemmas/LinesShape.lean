import Verif.Lemmas.LinesParse
import Verif.Lemmas.DocReplace

/-!
# The text and the paths of the nodes of lines
-/

set_option autoImplicit false

namespace Hocon
namespace Lines

open Spec DocParser HoconParse Notes
open DocEdit (Occurs OnceAt)

/-- The nodes `ns` have the text of the tokens `ts`, and set no paths but those that start with a key of the
lines. -/
def Shape (its : List Item) (ts : List Tok) (ns : List Node) : Prop :=
  Node.renderList ns = Tok.textList ts ∧ ∀ k p, k ∉ keysIn its → ¬ Occurs ns (k :: p)

theorem Bits.occurs {ts : List Tok} {gs : List Node} (h : Bits ts gs) (p : Path) : ¬ Occurs gs p := by
  intro ho
  cases ho with
  | here hm => exact h.2.1 _ hm _ rfl
  | inside hm => exact h.2.1 _ hm _ rfl

theorem Shape.nil : Shape [] [] [] := ⟨rfl, fun _ _ _ => Occurs.nil⟩

theorem Shape.bits {its : List Item} {ts us : List Tok} {gs ns : List Node} (hg : Bits us gs) (h : Shape its ts ns) :
    Shape its (us ++ ts) (gs ++ ns) := by
  refine ⟨?_, fun k p hk ho => ?_⟩
  · have h1 := hg.1
    have h2 := h.1
    simp only [Node.renderList] at h1 h2 ⊢
    simp [Node.tokensList_append, Tok.textList_append, h1, h2]
  · rcases Occurs.append.1 ho with ho | ho
    · exact hg.occurs _ ho
    · exact h.2 k p hk ho

theorem Shape.field {it : Item} {its : List Item} {k : Str} {ts us : List Tok} {cs ns : List Node} {pt : List Tok}
    (hk : keysIn (it :: its) = k :: keysIn its) (hc : Node.renderList cs = Tok.textList us)
    (hp : Node.fieldPath cs = .ok ([k], pt)) (h : Shape its ts ns) :
    Shape (it :: its) (us ++ ts) (.field cs :: ns) := by
  refine ⟨?_, fun j p hj ho => ?_⟩
  · have h2 := h.1
    simp only [Node.renderList] at hc h2 ⊢
    simp [Node.tokensList, Node.tokens, Tok.textList_append, hc, h2]
  · rw [hk] at hj
    rw [List.mem_cons, not_or] at hj
    rcases Occurs.cons.1 ho with ho | ho
    · generalize hq : j :: p = q at ho
      cases ho with
      | here hm hfp hpre =>
        simp at hm
        subst hm
        rw [hp] at hfp
        cases hfp
        subst hq
        exact hj.1 (List.cons_prefix_cons.1 hpre).1
      | inside hm hfp =>
        simp at hm
        subst hm
        rw [hp] at hfp
        cases hfp
        cases hq
        exact hj.1 rfl
    · exact h.2 j p hj.2 ho

theorem field_occurs {cs gs : List Node} {k : Str} {pt us : List Tok} (hg : Bits us gs)
    (hp : Node.fieldPath cs = .ok ([k], pt)) {j : Str} (hj : j ≠ k) (p : Path) : ¬ Occurs (.field cs :: gs) (j :: p) := by
  have h := Shape.field (it := .set k .null none) (its := []) (us := Node.tokensList cs) rfl rfl hp (Shape.bits hg Shape.nil)
  have := h.2 j p (by simpa [keysIn] using hj)
  rwa [List.append_nil] at this

theorem OnceAt.prefix {a cs : List Node} {p : Path} {pre post : Str} {v : Node} (ha : ¬ Occurs a p)
    (h : OnceAt cs p pre v post) : OnceAt (a ++ cs) p (Node.renderList a ++ pre) v post := by
  have r : ∀ x y : List Node, Node.renderList (x ++ y) = Node.renderList x ++ Node.renderList y := by
    intro x y; simp [Node.renderList, Node.tokensList_append, Tok.textList_append]
  cases h with
  | @here a' b fa fb v p ts ha' hb hk hf hv =>
    have := OnceAt.here (a := a ++ a') (fun h => (Occurs.append.1 h).elim ha ha') hb hk hf hv
    simpa [r] using this
  | @inside a' b fa fb ocs key rem ts pre post v hr ha' hb hk hf ho =>
    have := OnceAt.inside (a := a ++ a') hr (fun h => (Occurs.append.1 h).elim ha ha') hb hk hf ho
    simpa [r] using this

theorem OnceAt.suffix {b cs : List Node} {p : Path} {pre post : Str} {v : Node} (hb : ¬ Occurs b p)
    (h : OnceAt cs p pre v post) : OnceAt (cs ++ b) p pre v (post ++ Node.renderList b) := by
  have r : ∀ x y : List Node, Node.renderList (x ++ y) = Node.renderList x ++ Node.renderList y := by
    intro x y; simp [Node.renderList, Node.tokensList_append, Tok.textList_append]
  cases h with
  | @here a b' fa fb v p ts ha hb' hk hf hv =>
    have := OnceAt.here (b := b' ++ b) ha (fun h => (Occurs.append.1 h).elim hb' hb) hk hf hv
    simpa [r] using this
  | @inside a b' fa fb ocs key rem ts pre post v hr ha hb' hk hf ho =>
    have := OnceAt.inside (b := b' ++ b) hr ha (fun h => (Occurs.append.1 h).elim hb' hb) hk hf ho
    simpa [r] using this

theorem renderList_append (a b : List Node) : Node.renderList (a ++ b) = Node.renderList a ++ Node.renderList b := by
  simp [Node.renderList, Node.tokensList_append, Tok.textList_append]

theorem renderList_cons (a : Node) (b : List Node) : Node.renderList (a :: b) = a.render ++ Node.renderList b := by
  simp [Node.renderList, Node.render, Node.tokensList, Tok.textList_append]

theorem Shape.newline {its : List Item} {w ts : List Tok} {l : Int} {ns : List Node} (hw : Wts w) (h : Shape its ts ns) :
    Shape its (.newline l :: (w ++ ts)) (.single (.newline l) :: (gn w ++ ns)) :=
  Shape.bits (us := [.newline l]) (gs := [.single (.newline l)]) (Bits.single _) (Shape.bits (Bits.gap hw) h)

theorem Shape.note {its : List Item} {o : Option Str} {e ts : List Tok} {ns : List Node} (he : NoteT o e)
    (h : Shape its ts ns) : Shape (noteItem o :: its) (e ++ ts) (gn e ++ ns) := by
  obtain ⟨h1, h2⟩ := Shape.bits (Bits.gap he.wts) h
  exact ⟨h1, by cases o <;> exact h2⟩

/-! ### The nodes between the fields -/

/-- No brace, and whitespace only if it is blanks. -/
def PlainTok (t : Tok) : Prop := t ≠ .openCurly ∧ t ≠ .closeCurly ∧ ∀ a b, t = .ws a b → Blanks a

/-- The same for a node. -/
def Plain (n : Node) : Prop := ∀ t, n.singleToken? = some t → PlainTok t

theorem plain_map {ts : List Tok} (h : ∀ t ∈ ts, PlainTok t) : ∀ n ∈ ts.map bitNode, Plain n := by
  intro n hn
  obtain ⟨t, ht, rfl⟩ := List.mem_map.1 hn
  intro u hu
  have := h t ht
  rw [bitNode] at hu
  by_cases hc : ∃ a l, t = .unquoted a l
  · obtain ⟨a, l, rfl⟩ := hc
    rw [collectNode] at hu
    split at hu <;> simp [Node.singleToken?] at hu <;> subst hu <;> exact this
  · cases t <;> simp [collectNode, Node.singleToken?] at hu hc <;> subst hu <;> exact this

theorem Ws1.plain {w : List Tok} (h : Ws1 w) : ∀ t ∈ w, PlainTok t := by
  rcases h with rfl | ⟨a, b, rfl, _, hb⟩
  · simp
  · intro t ht
    simp at ht
    subst ht
    exact ⟨by simp, by simp, by rintro _ _ ⟨⟩; exact hb⟩

theorem NoteT.plain {o : Option Str} {e : List Tok} (h : NoteT o e) : ∀ t ∈ e, PlainTok t := by
  cases h with
  | none => simp
  | some hw _ =>
    intro t ht
    rcases List.mem_cons.1 ht with rfl | ht
    · exact ⟨by simp, by simp, by rintro _ _ ⟨⟩⟩
    · exact hw.plain t ht

theorem TailT.plainToks {o : Option Str} {e : List Tok} (h : TailT o e) : ∀ t ∈ e, PlainTok t := by
  cases h with
  | plain h => exact h.plain
  | comma hw h =>
    intro t ht
    rcases List.mem_cons.1 ht with rfl | ht
    · exact ⟨by simp, by simp, by rintro _ _ ⟨⟩⟩
    · rcases List.mem_append.1 ht with ht | ht
      · exact hw.plain t ht
      · exact h.plain t ht

/-- The last line of the nodes ends. -/
def Ends (ns : List Node) : Prop := ∃ a l w, ns = a ++ .single (.newline l) :: gn w ∧ Ws1 w

/-- Between the fields there are plain nodes, and lines that all end with a newline end with its node. -/
def Flat (z start : Bool) (ns : List Node) : Prop :=
  (∀ n ∈ ns, Plain n) ∧ (z = false → start = false ∨ ns ≠ [] → Ends ns)

theorem Ends.prefix {ns : List Node} (h : Ends ns) (b : List Node) : Ends (b ++ ns) := by
  obtain ⟨a, l, w, rfl, hw⟩ := h
  exact ⟨b ++ a, l, w, by simp, hw⟩

theorem Flat.nil {z : Bool} : Flat z true [] := ⟨by simp, fun _ h => by simp at h⟩

theorem Flat.eof : Flat true false [] := ⟨by simp, by rintro ⟨⟩⟩

theorem Flat.prefix {z start : Bool} {ns b : List Node} (h : Flat z false ns) (hb : ∀ n ∈ b, Plain n) :
    Flat z start (b ++ ns) := by
  refine ⟨fun n hn => (List.mem_append.1 hn).elim (hb n) (h.1 n), fun hz _ => (h.2 hz (Or.inl rfl)).prefix b⟩

theorem Flat.newline {z : Bool} {w : List Tok} {l : Int} {ns : List Node} (hw : Ws1 w) (h : Flat z true ns) :
    Flat z false (.single (.newline l) :: (gn w ++ ns)) := by
  have hp : ∀ n ∈ (Node.single (.newline l) :: gn w), Plain n := by
    have := plain_map (ts := .newline l :: w) (by
      intro t ht
      rcases List.mem_cons.1 ht with rfl | ht
      · exact ⟨by simp, by simp, by rintro _ _ ⟨⟩⟩
      · exact hw.plain t ht)
    rwa [List.map_cons, ← gn_bits hw.wts] at this
  refine ⟨?_, fun hz _ => ?_⟩
  · intro n hn
    rw [← List.cons_append] at hn
    exact (List.mem_append.1 hn).elim (hp n) (h.1 n)
  · by_cases hn : ns = []
    · subst hn
      exact ⟨[], l, w, by simp, hw⟩
    · exact (h.2 hz (Or.inr hn)).prefix (.single (.newline l) :: gn w)

theorem Flat.note {z : Bool} {o : Option Str} {e : List Tok} {ns : List Node} (he : NoteT o e) (h : Flat z false ns) :
    Flat z true (gn e ++ ns) := by
  rw [gn_bits he.wts]
  exact h.prefix (plain_map he.plain)

theorem Flat.field {z : Bool} {o : Option Str} {w e : List Tok} {cs gs ns : List Node} (hw : Ws1 w) (he : TailT o e)
    (hg : Bits (w ++ e) gs) (h : Flat z false ns) : Flat z true (.field cs :: (gs ++ ns)) := by
  rw [← List.cons_append]
  refine h.prefix ?_
  intro n hn
  rcases List.mem_cons.1 hn with rfl | hn
  · rintro t ⟨⟩
  · rw [hg.2.2] at hn
    exact plain_map (fun t ht => (List.mem_append.1 ht).elim (hw.plain t) (he.plainToks t)) n hn

theorem set_text {kts w1 w2 pt : List Tok} {c t : Tok} {k : Str} (h1 : Wts w1) (h2 : Wts w2)
    (hp : Tok.textList pt = Tok.textList kts) :
    Node.renderList (.path [k] pt :: (gn w1 ++ .single c :: gn w2) ++ [.simple t])
      = Tok.textList (kts ++ (w1 ++ c :: (w2 ++ [t]))) := by
  have e1 := gn_text h1
  have e2 := gn_text h2
  simp only [List.cons_append, renderList_cons, renderList_append, e1, e2]
  simp [Node.render, Node.tokens, Tok.textList_append, Tok.textList, hp, Node.renderList, Node.tokensList]

theorem sect_text {kts w1 w2 us w3 pt : List Tok} {k : Str} {ns : List Node} (h1 : Wts w1) (h2 : Wts w2) (h3 : Wts w3)
    (hp : Tok.textList pt = Tok.textList kts) (hn : Node.renderList ns = Tok.textList us) :
    Node.renderList (.path [k] pt :: gn w1 ++
          [.object (.single .openCurly :: (gn w2 ++ (ns ++ (gn w3 ++ [.single .closeCurly]))))])
      = Tok.textList (kts ++ (w1 ++ .openCurly :: (w2 ++ (us ++ (w3 ++ [.closeCurly]))))) := by
  have e1 := gn_text h1
  have e2 := gn_text h2
  have e3 := gn_text h3
  simp only [Node.renderList] at e1 e2 e3 hn
  simp [Node.renderList, Node.tokens, Tok.textList_append, Tok.textList, hp, Node.tokensList, Node.tokensList_append,
    e1, e2, e3, hn]

end Lines
end Hocon
