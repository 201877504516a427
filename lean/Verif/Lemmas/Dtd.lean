import Verif.Lemmas.Str
import Verif.Props.Xml
import Verif.Model.SpecRead
import Verif.Spec.Dtd

/-!
# Lemmas on reading: when a member can be read, and what validity says about the children
-/
namespace Pisi.Xml.Dtd
open Pisi.Path

/-! ## Nodes -/

theorem getNode_first (n : Xml) (t : Str) (y : Xml) : getNode n t = some y ↔ First n t y := by
  unfold getNode First
  rw [List.find?_eq_some_iff_append]
  constructor
  · rintro ⟨h1, l, r, e, h2⟩
    exact ⟨l, r, e, h1, fun z hz => by simpa using h2 z hz⟩
  · rintro ⟨l, r, e, h1, h2⟩
    exact ⟨h1, l, r, e, fun z hz => by simpa using h2 z hz⟩

theorem getNode_none (n : Xml) (t : Str) : getNode n t = none ↔ ∀ y, ¬ First n t y := by
  constructor
  · intro h y hy
    rw [(getNode_first n t y).2 hy] at h; cases h
  · intro h
    cases hn : getNode n t with
    | none => rfl
    | some y => exact absurd ((getNode_first n t y).1 hn) (h y)

theorem getAll_cons (n : Xml) (t : Str) (p : List Str) : getAll n (t :: p) = (getTags n t).flatMap (getAll · p) := by
  have : ∀ (p : List Str) (l : List Xml), p.foldl (fun l t => l.flatMap (getTags · t)) l = l.flatMap (getAll · p) := by
    intro p
    induction p with
    | nil => intro l; simp [getAll]
    | cons u p ih =>
      intro l
      rw [List.foldl_cons, ih, List.flatMap_assoc]
      congr 1
      funext x
      unfold getAll
      rw [List.foldl_cons, ih]
      simp [List.flatMap_cons, getAll]
  unfold getAll
  rw [List.foldl_cons, this]
  simp [getAll]

theorem mem_getAll (p : List Str) (n y : Xml) : y ∈ getAll n p ↔ Along p n y := by
  induction p generalizing n with
  | nil =>
    constructor
    · intro h; obtain rfl := List.mem_singleton.1 h; exact .here _
    · intro h; cases h; exact List.mem_singleton.2 rfl
  | cons t p ih =>
    rw [getAll_cons, List.mem_flatMap]
    constructor
    · rintro ⟨x, hx, hy⟩
      obtain ⟨h1, h2⟩ := List.mem_filter.1 hx
      exact .down t p n x y h1 h2 ((ih x).1 hy)
    · intro h
      cases h with
      | down _ _ _ x _ h1 h2 h3 => exact ⟨x, List.mem_filter.2 ⟨h1, h2⟩, (ih x).2 h3⟩

theorem along_one (n y : Xml) (t : Str) : Along [t] n y ↔ y ∈ n.kids ∧ y.isTag t = true := by
  constructor
  · intro h
    cases h with
    | down _ _ _ x _ h1 h2 h3 => cases h3; exact ⟨h1, h2⟩
  · rintro ⟨h1, h2⟩; exact .down t [] n y y h1 h2 (.here y)

theorem along_two (n z : Xml) (t u : Str) : Along [t, u] n z ↔ ∃ y, y ∈ n.kids ∧ y.isTag t = true ∧ z ∈ y.kids ∧ z.isTag u = true := by
  constructor
  · intro h
    cases h with
    | down _ _ _ x _ h1 h2 h3 =>
      obtain ⟨h4, h5⟩ := (along_one _ _ _).1 h3
      exact ⟨x, h1, h2, h4, h5⟩
  · rintro ⟨y, h1, h2, h3, h4⟩
    exact .down t [u] n y z h1 h2 ((along_one _ _ _).2 ⟨h3, h4⟩)

theorem first_kid {n y : Xml} {t : Str} (h : First n t y) : y ∈ n.kids ∧ y.isTag t = true := by
  obtain ⟨l, r, e, h1, _⟩ := h
  exact ⟨by rw [e]; simp, h1⟩

theorem first_exists {n : Xml} {t : Str} : (∃ y, First n t y) ↔ ∃ y, y ∈ n.kids ∧ y.isTag t = true := by
  constructor
  · rintro ⟨y, h⟩; exact ⟨y, first_kid h⟩
  · rintro ⟨y, h1, h2⟩
    cases hn : getNode n t with
    | none => exact absurd h2 (by have := List.find?_eq_none.1 hn y h1; simpa using this)
    | some z => exact ⟨z, (getNode_first n t z).1 hn⟩

/-! ## Texts -/

theorem dropWhile_split (s : Str) : ∃ a, s = a ++ s.dropWhile uspace ∧ ∀ c ∈ a, uspace c = true := by
  induction s with
  | nil => exact ⟨[], rfl, by simp⟩
  | cons c s ih =>
    by_cases h : uspace c = true
    · obtain ⟨a, e, ha⟩ := ih
      refine ⟨c :: a, ?_, ?_⟩
      · rw [List.dropWhile_cons_of_pos h, List.cons_append, ← e]
      · intro x hx
        rcases List.mem_cons.1 hx with rfl | hx
        · exact h
        · exact ha x hx
    · exact ⟨[], by rw [List.dropWhile_cons_of_neg h]; rfl, by simp⟩

theorem dropWhile_head (s : Str) : (s.dropWhile uspace).head?.all (fun c => ¬ uspace c) = true := by
  induction s with
  | nil => rfl
  | cons c s ih =>
    by_cases h : uspace c = true
    · rw [List.dropWhile_cons_of_pos h]; exact ih
    · rw [List.dropWhile_cons_of_neg h]; simpa using h

theorem rstrip_eq (s : Str) : rstrip uspace s = (s.reverse.dropWhile uspace).reverse := rfl

theorem strip_split (s : Str) : ∃ a b, s = a ++ strip s ++ b ∧ (∀ c ∈ a ++ b, uspace c = true) ∧ (strip s ≠ [] → Solid (strip s)) := by
  obtain ⟨a, e, ha⟩ := dropWhile_split s
  obtain ⟨b, eb, hb⟩ := dropWhile_split (s.dropWhile uspace).reverse
  have e2 : s.dropWhile uspace = strip s ++ b.reverse := by
    have := congrArg List.reverse eb
    rw [List.reverse_reverse, List.reverse_append] at this
    exact this
  refine ⟨a, b.reverse, ?_, ?_, fun hne => ⟨hne, ?_, ?_⟩⟩
  · rw [List.append_assoc, ← e2, ← e]
  · intro c hc
    rcases List.mem_append.1 hc with hc | hc
    · exact ha c hc
    · exact hb c (List.mem_reverse.1 hc)
  · have h := dropWhile_head s
    rw [e2] at h
    cases hs : strip s with
    | nil => exact absurd hs hne
    | cons c r => rw [hs] at h; simpa using h
  · unfold strip
    rw [rstrip_eq, List.getLast?_reverse]
    exact dropWhile_head _

theorem word_text (x : Xml) : Words x ↔ ∃ t, nodeText x = some (some t) ∧ t ≠ [] := by
  constructor
  · rintro ⟨a, t, b, ks, e, hw, hs⟩
    refine ⟨t, ?_, hs.1⟩
    unfold nodeText
    rw [e]
    have := strip_blank (s := t) (fun c hc => hw c (List.mem_append_left b hc)) (fun c hc => hw c (List.mem_append_right a hc))
    simp only [this, strip_solid t hs]
  · rintro ⟨t, h, hne⟩
    unfold nodeText at h
    split at h
    · cases h
    · rename_i s ks e
      obtain rfl : strip s = t := by simpa using h
      obtain ⟨a, b, e2, h1, h2⟩ := strip_split s
      exact ⟨a, strip s, b, ks, by rw [e, ← e2], h1, h2 hne⟩
    · cases h

theorem word_ascii (x : Xml) : Word x ↔ ∃ t, nodeText x = some (some t) ∧ t ≠ [] ∧ Ascii t := by
  constructor
  · rintro ⟨a, t, b, ks, e, hw, hs, ha⟩
    refine ⟨t, ?_, hs.1, ha⟩
    unfold nodeText
    rw [e]
    have := strip_blank (s := t) (fun c hc => hw c (List.mem_append_left b hc)) (fun c hc => hw c (List.mem_append_right a hc))
    simp only [this, strip_solid t hs]
  · rintro ⟨t, h, hne, ha⟩
    unfold nodeText at h
    split at h
    · cases h
    · rename_i s ks e
      obtain rfl : strip s = t := by simpa using h
      obtain ⟨a, b, e2, h1, h2⟩ := strip_split s
      exact ⟨a, strip s, b, ks, by rw [e, ← e2], h1, h2 hne, ha⟩
    · cases h

/-- Only text in the element. -/
def Leaf (x : Xml) : Prop := ∀ k ∈ x.kids, IsText k

theorem plain_text {x : Xml} (hl : Leaf x) : Plain x ↔ ∃ o, nodeText x = some o ∧ ∀ t, o = some t → Ascii t := by
  unfold Plain
  rw [word_ascii]
  constructor
  · rintro (⟨t, h, _, ha⟩ | h)
    · exact ⟨some t, h, by rintro u ⟨⟩; exact ha⟩
    · unfold nodeText
      split
      · exact ⟨none, rfl, by simp⟩
      · rename_i s ks e
        refine ⟨_, rfl, ?_⟩
        rintro t ⟨⟩
        rw [strip_all (h s ks e)]
        intro c hc; cases hc
      · rename_i u as cs ks e
        obtain ⟨t, ht⟩ := hl (.elem u as cs) (by rw [e]; simp)
        cases ht
  · rintro ⟨o, h, ha⟩
    unfold nodeText at h
    split at h
    · rename_i e; right; intro t ks e2; rw [e] at e2; cases e2
    · rename_i s ks e
      cases h
      by_cases hs : strip s = []
      · right
        intro t ks' e2
        rw [e] at e2
        obtain rfl : t = s := by cases e2; rfl
        obtain ⟨a, b, e3, h1, _⟩ := strip_split t
        rw [hs] at e3
        intro c hc
        rw [e3] at hc
        exact h1 c (by simpa using hc)
      · left
        refine ⟨strip s, ?_, hs, ha _ rfl⟩
        unfold nodeText; rw [e]
    · cases h

/-! ## When a member can be read -/

theorem isSome_cons_str (t : Str) : (cons .str t).isSome = true ↔ Ascii t := by
  rw [← ascii_iff]
  by_cases h : ascii t = true <;> simp [cons, h]

theorem decBasic_req (b : Basic) (o : Option Str) : (decBasic b true o).isSome = true ↔ ∃ t, o = some t ∧ t ≠ [] ∧ (cons b t).isSome := by
  unfold decBasic
  split
  · rename_i c t
    constructor
    · intro h; exact ⟨_, rfl, by simp, h⟩
    · rintro ⟨_, ⟨⟩, _, h⟩; exact h
  · rename_i h
    constructor
    · intro h; cases h
    · rintro ⟨t, rfl, hne, _⟩
      cases t with
      | nil => exact absurd rfl hne
      | cons c t => exact absurd rfl (h c t)

theorem decBasic_opt (b : Basic) (o : Option Str) : (decBasic b false o).isSome = true ↔ ∀ t, o = some t → t ≠ [] → (cons b t).isSome := by
  unfold decBasic
  split
  · rename_i c t
    constructor
    · rintro h _ ⟨⟩ _; exact h
    · intro h; exact h _ rfl (by simp)
  · rename_i h
    constructor
    · rintro _ t rfl hne
      cases t with
      | nil => exact absurd rfl hne
      | cons c t => exact absurd rfl (h c t)
    · intro _; rfl

theorem ascii_nil : Ascii [] := fun _ h => by cases h

theorem attr_req (n : Xml) (a : String) : (decM (.attr (Classes.s a) .str true) n).isSome = true ↔ HasAttr n a := by
  unfold decM HasAttr
  rw [decBasic_req]
  simp only [isSome_cons_str]
  exact Iff.rfl

theorem attr_opt (n : Xml) (a : String) : (decM (.attr (Classes.s a) .str false) n).isSome = true ↔ PlainAttr n a := by
  unfold decM PlainAttr
  rw [decBasic_opt]
  simp only [isSome_cons_str]
  constructor
  · intro h v hv
    by_cases hne : v = []
    · rw [hne]; exact ascii_nil
    · exact h v hv hne
  · intro h v hv _; exact h v hv

theorem attr_int (n : Xml) (a : String) : (decM (.attr (Classes.s a) .int false) n).isSome = true ↔ IntAttr n a := by
  unfold decM IntAttr
  rw [decBasic_opt]
  simp only [cons, Option.isSome_map, Option.isSome_iff_exists, pyInt_iff]
  exact Iff.rfl

theorem own_text (n : Xml) (t : Str) : (decM (.str t .str true) n).isSome = true ↔ Word n := by
  unfold decM
  rw [word_ascii]
  cases h : nodeText n with
  | none => simp
  | some o =>
    rw [Option.bind_some, decBasic_req]
    simp only [isSome_cons_str, Option.some.injEq]

theorem tag_req (n : Xml) (t : String) : (decM (.basic (Classes.s t) .str true) n).isSome = true ↔ HasWord n t := by
  unfold decM decTag HasWord
  cases h : getNode n (Classes.s t) with
  | none =>
    simp only [decBasic_req]
    constructor
    · rintro ⟨_, ⟨⟩, _⟩
    · rintro ⟨y, hy, _⟩; exact absurd hy ((getNode_none _ _).1 h y)
  | some x =>
    have hx := (getNode_first _ _ _).1 h
    have := own_text x (Classes.s t)
    unfold decM at this
    simp only [this]
    constructor
    · intro hw; exact ⟨x, hx, hw⟩
    · rintro ⟨y, hy, hw⟩
      have := (getNode_first _ _ _).2 hy
      change getNode n (Classes.s t) = some y at this
      rw [h] at this; cases this; exact hw

theorem tag_req_uni (n : Xml) (t : String) : (decM (.basic (Classes.s t) .uni true) n).isSome = true ↔ HasWords n t := by
  unfold decM decTag HasWords
  have hu : ∀ x, ((nodeText x).bind (decBasic .uni true)).isSome = true ↔ Words x := by
    intro x
    rw [word_text]
    cases h : nodeText x with
    | none => simp
    | some o =>
      rw [Option.bind_some, decBasic_req]
      simp [cons]
  cases h : getNode n (Classes.s t) with
  | none =>
    simp only [decBasic_req]
    constructor
    · rintro ⟨_, ⟨⟩, _⟩
    · rintro ⟨y, hy, _⟩; exact absurd hy ((getNode_none _ _).1 h y)
  | some x =>
    have hx := (getNode_first _ _ _).1 h
    simp only [hu]
    constructor
    · intro hw; exact ⟨x, hx, hw⟩
    · rintro ⟨y, hy, hw⟩
      have := (getNode_first _ _ _).2 hy
      change getNode n (Classes.s t) = some y at this
      rw [h] at this; cases this; exact hw

theorem leaf_text {x : Xml} (h : Leaf x) : ∃ o, nodeText x = some o := by
  unfold nodeText
  split
  · exact ⟨_, rfl⟩
  · exact ⟨_, rfl⟩
  · rename_i u as cs ks e
    obtain ⟨t, ht⟩ := h (.elem u as cs) (by rw [e]; simp)
    cases ht

theorem tag_opt (n : Xml) (t : String) (hl : ∀ y ∈ n.kids, y.isTag (s t) = true → Leaf y) :
    (decM (.basic (Classes.s t) .str false) n).isSome = true ↔ PlainText n t := by
  unfold decM decTag PlainText
  cases h : getNode n (Classes.s t) with
  | none =>
    constructor
    · intro _ y hy; exact absurd hy ((getNode_none _ _).1 h y)
    · intro _; rfl
  | some x =>
    have hx := (getNode_first _ _ _).1 h
    have hlx := hl x (first_kid hx).1 (first_kid hx).2
    obtain ⟨o, ho⟩ := leaf_text hlx
    simp only [ho, Option.bind_some, decBasic_opt, isSome_cons_str]
    constructor
    · intro hw y hy
      have := (getNode_first _ _ _).2 hy
      change getNode n (Classes.s t) = some y at this
      rw [h] at this; cases this
      refine (plain_text hlx).2 ⟨o, ho, fun u hu => ?_⟩
      by_cases hne : u = []
      · rw [hne]; exact ascii_nil
      · exact hw u hu hne
    · intro hw u hu _
      obtain ⟨o', ho', ha⟩ := (plain_text hlx).1 (hw x hx)
      rw [ho] at ho'; cases ho'
      exact ha u hu

theorem tag_opt_uni (n : Xml) (t : String) (hl : ∀ y ∈ n.kids, y.isTag (s t) = true → Leaf y) :
    (decM (.basic (Classes.s t) .uni false) n).isSome = true := by
  unfold decM decTag
  cases h : getNode n (Classes.s t) with
  | none => rfl
  | some x =>
    have hx := (getNode_first _ _ _).1 h
    obtain ⟨o, ho⟩ := leaf_text (hl x (first_kid hx).1 (first_kid hx).2)
    simp only [ho, Option.bind_some, decBasic_opt]
    intro t _ _; rfl

theorem mapM_isSome {α β : Type} (f : α → Option β) (l : List α) : (l.mapM f).isSome = true ↔ ∀ x ∈ l, (f x).isSome = true := by
  induction l with
  | nil => simp
  | cons a l ih =>
    rw [List.mapM_cons]
    cases h : f a with
    | none => simp [h]
    | some b =>
      cases h2 : l.mapM f with
      | none =>
        rw [h2] at ih
        have : ¬ ∀ x ∈ l, (f x).isSome = true := fun hh => by simpa using ih.2 hh
        constructor
        · intro hh; simp at hh
        · intro hh; exact absurd (fun x hx => hh x (List.mem_cons_of_mem a hx)) this
      | some bs =>
        rw [h2] at ih
        constructor
        · intro _ x hx
          rcases List.mem_cons.1 hx with rfl | hx
          · rw [h]; rfl
          · exact ih.1 rfl x hx
        · intro _; rfl

theorem decList_isSome (r : Bool) (f : Xml → Option Val) (ns : List Xml) :
    (decList r f ns).isSome = true ↔ (r = true → ∃ x, x ∈ ns) ∧ ∀ x ∈ ns, (f (dummy x)).isSome = true := by
  unfold decList
  by_cases h : ns.isEmpty = true ∧ r = true
  · rw [if_pos h]
    constructor
    · intro hh; cases hh
    · rintro ⟨h1, _⟩
      obtain ⟨x, hx⟩ := h1 h.2
      rw [List.isEmpty_iff.1 h.1] at hx; cases hx
  · rw [if_neg h, Option.isSome_map, mapM_isSome]
    constructor
    · intro hh
      refine ⟨fun hr => ?_, hh⟩
      cases ns with
      | nil => exact absurd ⟨rfl, hr⟩ h
      | cons x l => exact ⟨x, List.mem_cons_self⟩
    · rintro ⟨_, hh⟩; exact hh

theorem along_tag (p : List Str) (t : Str) (n y : Xml) (h : Along (p ++ [t]) n y) : y.isTag t = true := by
  induction p generalizing n with
  | nil => exact ((along_one _ _ _).1 h).2
  | cons u p ih =>
    cases h with
    | down _ _ _ x _ _ _ h3 => exact ih x h3

theorem words_list (n : Xml) (k : Str) (p : List Str) (t : Str) (r : Bool) :
    (decM (.basics k p t .str r) n).isSome = true ↔
      (r = true → ∃ y, Along (p ++ [t]) n y) ∧ ∀ y, Along (p ++ [t]) n y → Word y := by
  unfold decM
  rw [decList_isSome]
  simp only [mem_getAll]
  refine and_congr Iff.rfl (forall_congr' fun y => forall_congr' fun hy => ?_)
  unfold decTag
  rw [getNode_dummy (along_tag p t n y hy)]
  have := own_text y t
  unfold decM at this
  exact this

theorem class_req (n : Xml) (t : Str) (ms : List Member) : (decM (.cls t ms true) n).isSome = true ↔
    ∃ y, First n t y ∧ (decode ms y).isSome = true := by
  unfold decM
  cases h : getNode n t with
  | none =>
    constructor
    · intro hh; cases hh
    · rintro ⟨y, hy, _⟩; exact absurd hy ((getNode_none _ _).1 h y)
  | some x =>
    have hx := (getNode_first _ _ _).1 h
    rw [Option.isSome_map]
    constructor
    · intro hw; exact ⟨x, hx, hw⟩
    · rintro ⟨y, hy, hw⟩
      have := (getNode_first _ _ _).2 hy
      rw [h] at this; cases this; exact hw

theorem class_list (n : Xml) (k : Str) (p : List Str) (t : Str) (ms : List Member) (r : Bool) :
    (decM (.clss k p t ms r) n).isSome = true ↔
      (r = true → ∃ y, Along (p ++ [t]) n y) ∧ ∀ y, Along (p ++ [t]) n y → (decode ms y).isSome = true := by
  unfold decM
  rw [decList_isSome]
  simp only [mem_getAll]
  refine and_congr Iff.rfl (forall_congr' fun y => forall_congr' fun hy => ?_)
  rw [getNode_dummy (along_tag p t n y hy), Option.isSome_map]

theorem decLangs_isSome (l : List Xml) (d : List (Str × Str)) : (decLangs l d).isSome = true ↔ ∀ y ∈ l, Words y := by
  induction l generalizing d with
  | nil => simp [decLangs]
  | cons x l ih =>
    unfold decLangs
    split
    · rename_i c s h
      rw [ih]
      constructor
      · intro hh y hy
        rcases List.mem_cons.1 hy with rfl | hy
        · exact (word_text _).2 ⟨_, h, by simp⟩
        · exact hh y hy
      · intro hh y hy; exact hh y (List.mem_cons_of_mem x hy)
    · rename_i h
      constructor
      · intro hh; cases hh
      · intro hh
        obtain ⟨t, ht, hne⟩ := (word_text _).1 (hh x List.mem_cons_self)
        cases t with
        | nil => exact absurd rfl hne
        | cons c t => exact absurd ht (h c t)

theorem local_text (n : Xml) (t : String) (r : Bool) : (decM (.loc (Classes.s t) r) n).isSome = true ↔
    (r = true → ∃ y, First n (s t) y) ∧ AllWords n [t] := by
  unfold decM decLoc AllWords
  have hf : (∃ y, First n (s t) y) ↔ ∃ y, y ∈ getAll n [Classes.s t] := by
    rw [first_exists]
    simp only [mem_getAll, along_one]
    exact Iff.rfl
  rw [hf]
  have ha : (∀ y, Along (List.map s [t]) n y → Words y) ↔ ∀ y ∈ getAll n [Classes.s t], Words y := by
    simp only [mem_getAll]
    exact Iff.rfl
  rw [ha]
  by_cases h : (getAll n [Classes.s t]).isEmpty = true ∧ r = true
  · rw [if_pos h]
    constructor
    · intro hh; cases hh
    · rintro ⟨h1, _⟩
      obtain ⟨x, hx⟩ := h1 h.2
      rw [List.isEmpty_iff.1 h.1] at hx; cases hx
  · rw [if_neg h, Option.isSome_map, decLangs_isSome]
    constructor
    · intro hh
      refine ⟨fun hr => ?_, hh⟩
      cases hg : getAll n [Classes.s t] with
      | nil => rw [hg] at h; exact absurd ⟨rfl, hr⟩ h
      | cons x l => exact ⟨x, List.mem_cons_self⟩
    · rintro ⟨_, hh⟩; exact hh

theorem decode_isSome (ms : List Member) (n : Xml) : (decode ms n).isSome = true ↔ ∀ m ∈ ms, (decM m n).isSome = true := by
  induction ms with
  | nil => simp [decode]
  | cons m ms ih =>
    unfold decode
    cases h : decM m n with
    | none => simp [h]
    | some v => simp [h, ih]

/-! ## Validity -/

theorem dtd_keys : (dtd.map (·.1)).Nodup := by decide +kernel

theorem dtd_fun {t : Str} {d e : Decl} (h : (t, d) ∈ dtd) (h' : (t, e) ∈ dtd) : d = e := by
  have := List.inj_on_of_nodup_map dtd_keys h h' rfl
  cases this; rfl

/-- The elements that may be below. -/
def Content.allowed : Content → List Str
  | .text => []
  | .mixed ts => ts
  | .seq ps => ps.map (·.1)

theorem mem_tags (ks : List Xml) (u : Str) : u ∈ tags ks ↔ ∃ y ∈ ks, y.isTag u = true := by
  induction ks with
  | nil => simp [tags]
  | cons k ks ih =>
    cases k with
    | text t => unfold tags; rw [ih]; simp [Xml.isTag]
    | elem t as cs =>
      unfold tags
      rw [List.mem_cons, ih]
      constructor
      · rintro (rfl | ⟨y, hy, h⟩)
        · exact ⟨_, List.mem_cons_self, by simp [Xml.isTag]⟩
        · exact ⟨y, List.mem_cons_of_mem _ hy, h⟩
      · rintro ⟨y, hy, h⟩
        rcases List.mem_cons.1 hy with rfl | hy
        · left; exact (of_decide_eq_true h).symm
        · right; exact ⟨y, hy, h⟩

theorem matches_mem {ps : List (Str × Occ)} {ts : List Str} (h : Matches ps ts) : ∀ u ∈ ts, u ∈ ps.map (·.1) := by
  induction h with
  | nil => simp
  | one t ps ts _ ih =>
    intro u hu
    rcases List.mem_cons.1 hu with rfl | hu
    · simp
    · exact List.mem_cons_of_mem _ (ih u hu)
  | none t ps ts _ ih => intro u hu; exact List.mem_cons_of_mem _ (ih u hu)
  | more t ps ts _ ih =>
    intro u hu
    rcases List.mem_cons.1 hu with rfl | hu
    · simp
    · exact ih u hu
  | plus t ps ts _ ih =>
    intro u hu
    rcases List.mem_cons.1 hu with rfl | hu
    · simp
    · exact ih u hu

theorem content_allowed {c : Content} {ks : List Xml} (h : ContentOk c ks) {y : Xml} (hy : y ∈ ks) {u : Str}
    (hu : y.isTag u = true) : u ∈ c.allowed := by
  cases c with
  | text => obtain ⟨t, rfl⟩ := h y hy; cases hu
  | mixed ts => exact h u ((mem_tags ks u).2 ⟨y, hy, hu⟩)
  | seq ps => exact matches_mem h.1 u ((mem_tags ks u).2 ⟨y, hy, hu⟩)

/-- What is known about a valid element of a given tag. -/
theorem valid_inv {x : Xml} {t : Str} {d : Decl} (hv : Valid x) (ht : x.isTag t = true) (hd : (t, d) ∈ dtd) :
    (∃ as, x = .elem t as x.kids ∧ AttrsOk d.attrs as) ∧ ContentOk d.content x.kids ∧ ∀ k ∈ x.kids, Valid k := by
  cases hv with
  | text u => cases ht
  | elem u as ks e he ha hc hk =>
    obtain rfl : u = t := by simpa [Xml.isTag] using ht
    obtain rfl := dtd_fun he hd
    exact ⟨⟨as, rfl, ha⟩, hc, hk⟩

theorem kid_not {x : Xml} {t : Str} {d : Decl} (hv : Valid x) (ht : x.isTag t = true) (hd : (t, d) ∈ dtd) {u : Str}
    (hu : u ∉ d.content.allowed) : ∀ y ∈ x.kids, y.isTag u = false := by
  intro y hy
  obtain ⟨_, hc, _⟩ := valid_inv hv ht hd
  cases h : y.isTag u with
  | false => rfl
  | true => exact absurd (content_allowed hc hy h) hu

theorem leaf_of {x : Xml} {t : Str} {d : Decl} (hv : Valid x) (ht : x.isTag t = true) (hd : (t, d) ∈ dtd) (hc : d.content = .text) :
    Leaf x := by
  obtain ⟨_, h, _⟩ := valid_inv hv ht hd
  rw [hc] at h
  exact h

theorem matches_has {ps : List (Str × Occ)} {ts : List Str} (h : Matches ps ts) : ∀ u o, (u, o) ∈ ps → o ≠ .star → u ∈ ts := by
  induction h with
  | nil => intro u o h; cases h
  | one t ps ts _ ih =>
    intro u o hu ho
    rcases List.mem_cons.1 hu with e | hu
    · cases e; exact List.mem_cons_self
    · exact List.mem_cons_of_mem t (ih u o hu ho)
  | none t ps ts _ ih =>
    intro u o hu ho
    rcases List.mem_cons.1 hu with e | hu
    · cases e; exact absurd rfl ho
    · exact ih u o hu ho
  | more t ps ts _ ih =>
    intro u o hu ho
    rcases List.mem_cons.1 hu with e | hu
    · cases e; exact absurd rfl ho
    · exact List.mem_cons_of_mem t (ih u o (List.mem_cons_of_mem _ hu) ho)
  | plus t ps ts _ ih =>
    intro u o hu ho
    rcases List.mem_cons.1 hu with e | hu
    · cases e; exact List.mem_cons_self
    · exact List.mem_cons_of_mem t (ih u o (List.mem_cons_of_mem _ hu) ho)

/-- A sequence has what it must have. -/
theorem kid_has {x : Xml} {t : Str} {d : Decl} (hv : Valid x) (ht : x.isTag t = true) (hd : (t, d) ∈ dtd) {ps : List (Str × Occ)}
    (hc : d.content = .seq ps) {u : Str} {o : Occ} (hu : (u, o) ∈ ps) (ho : o ≠ .star) : ∃ y ∈ x.kids, y.isTag u = true := by
  obtain ⟨_, h, _⟩ := valid_inv hv ht hd
  rw [hc] at h
  exact (mem_tags _ _).1 (matches_has h.1 u o hu ho)

end Pisi.Xml.Dtd
