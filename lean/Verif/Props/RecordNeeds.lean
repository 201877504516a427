import Verif.Props.Dtd
import Verif.Spec.RecordNeeds

/-!
# What must be in the files that are read as records: C184, C185
-/
namespace Pisi.Xml.Dtd
open Pisi.Path

/-! ## Optional elements -/

theorem nodeText_cases (x : Xml) : (∃ u as cs ks, x.kids = .elem u as cs :: ks ∧ nodeText x = none) ∨
    (x.kids = [] ∧ nodeText x = some none) ∨ ∃ t ks, x.kids = .text t :: ks ∧ nodeText x = some (some (strip t)) := by
  unfold nodeText
  cases h : x.kids with
  | nil => exact .inr (.inl ⟨rfl, rfl⟩)
  | cons k ks =>
    cases k with
    | text t => exact .inr (.inr ⟨t, ks, rfl, rfl⟩)
    | elem u as cs => exact .inl ⟨u, as, cs, ks, rfl, rfl⟩

theorem opt_tag (n : Xml) (t : String) (b : Basic) : (decM (.basic (Classes.s t) b false) n).isSome = true ↔
    ∀ y, First n (s t) y → Bare y ∧ ∀ u ks, y.kids = .text u :: ks → strip u ≠ [] → (cons b (strip u)).isSome := by
  unfold decM decTag
  cases h : getNode n (Classes.s t) with
  | none =>
    constructor
    · intro _ y hy; exact absurd hy ((getNode_none _ _).1 h y)
    · intro _; rfl
  | some x =>
    have hx : First n (s t) x := (getNode_first _ _ _).1 h
    have hu : ∀ y, First n (s t) y → y = x := by
      intro y hy
      have h1 := (getNode_first _ _ _).2 hy
      change getNode n (Classes.s t) = some y at h1
      rw [h] at h1; cases h1; rfl
    have key : ((nodeText x).bind (decBasic b false)).isSome = true ↔
        Bare x ∧ ∀ u ks, x.kids = .text u :: ks → strip u ≠ [] → (cons b (strip u)).isSome := by
      rcases nodeText_cases x with ⟨u, as, cs, ks, hk, hn⟩ | ⟨hk, hn⟩ | ⟨u, ks, hk, hn⟩
      · rw [hn]
        constructor
        · intro hh; cases hh
        · rintro ⟨hb, _⟩; exact absurd hk (hb u as cs ks)
      · rw [hn]
        constructor
        · intro _
          refine ⟨?_, ?_⟩
          · intro u as cs ks e; rw [hk] at e; cases e
          · intro u ks e; rw [hk] at e; cases e
        · intro _; rfl
      · rw [hn, Option.bind_some, decBasic_opt]
        constructor
        · intro hh
          refine ⟨?_, ?_⟩
          · intro u as cs ks e; rw [hk] at e; cases e
          · intro u' ks' e hne; rw [hk] at e; cases e; exact hh _ rfl hne
        · rintro ⟨_, hh⟩ v ⟨⟩ hne; exact hh u ks hk hne
    simp only [key]
    exact ⟨fun hh y hy => by rw [hu y hy]; exact hh, fun hh => hh x hx⟩

theorem may_plain (n : Xml) (t : String) : (decM (.basic (Classes.s t) .str false) n).isSome = true ↔ MayPlain n t := by
  rw [opt_tag]
  refine forall_congr' fun y => forall_congr' fun _ => and_congr_right fun hb => ?_
  unfold Plain
  rw [word_ascii]
  simp only [isSome_cons_str]
  rcases nodeText_cases y with ⟨u, as, cs, ks, hk, hn⟩ | ⟨hk, hn⟩ | ⟨u, ks, hk, hn⟩
  · exact absurd hk (hb u as cs ks)
  · constructor
    · intro _; right; intro u ks e; rw [hk] at e; cases e
    · intro _ u ks e; rw [hk] at e; cases e
  · constructor
    · intro h
      by_cases hs : strip u = []
      · right
        intro u' ks' e
        rw [hk] at e
        obtain rfl : u' = u := by cases e; rfl
        obtain ⟨a, b, e3, h1, _⟩ := strip_split u'
        rw [hs] at e3
        intro c hc
        rw [e3] at hc
        exact h1 c (by simpa using hc)
      · exact .inl ⟨_, hn, hs, h u ks hk hs⟩
    · rintro (⟨v, hv, _, ha⟩ | h) u' ks' e hne
      · rw [hk] at e; cases e
        rw [hn] at hv; cases hv; exact ha
      · exact absurd (strip_all (h u' ks' e)) hne

theorem may_text (n : Xml) (t : String) : (decM (.basic (Classes.s t) .uni false) n).isSome = true ↔ MayText n t := by
  rw [opt_tag]
  refine forall_congr' fun y => forall_congr' fun _ => ?_
  exact ⟨And.left, fun h => ⟨h, fun _ _ _ _ => rfl⟩⟩

theorem pyLong_iff (t : Str) : (pyLong t).isSome = true ↔ ∃ n, LongNumber t n := by
  unfold pyLong
  cases h : pyInt t with
  | some n => exact ⟨fun _ => ⟨n, .inl ((pyInt_iff t n).1 h)⟩, fun _ => rfl⟩
  | none =>
    have hno : ∀ n, ¬ Pisi.Version.Spec.Number t n := fun n hn => by rw [(pyInt_iff t n).2 hn] at h; cases h
    constructor
    · intro hh
      obtain ⟨n, hn⟩ := Option.isSome_iff_exists.1 hh
      simp only at hn
      split at hn
      · rename_i c d r e
        split at hn
        · rename_i hc
          rw [Bool.and_eq_true, Bool.or_eq_true] at hc
          have et : t = r.reverse ++ [d, c] ++ (t.reverse.takeWhile isSpace).reverse := by
            have := (List.takeWhile_append_dropWhile (p := isSpace) (l := t.reverse)).symm
            rw [e] at this
            have h2 := congrArg List.reverse this
            rw [List.reverse_reverse] at h2
            rw [h2]
            simp only [List.reverse_append, List.reverse_cons, List.append_assoc, List.cons_append, List.nil_append, List.reverse_reverse]
            congr 3
            have h3 : (List.takeWhile isSpace (List.takeWhile isSpace t.reverse ++ c :: d :: r)) = List.takeWhile isSpace t.reverse := by
              rw [← this]
            rw [h3]
          refine ⟨n, .inr ⟨r.reverse, d, c, _, et, hc.2, ?_, ?_, ?_⟩⟩
          · rcases hc.1 with h | h
            · exact .inl (of_decide_eq_true h)
            · exact .inr (of_decide_eq_true h)
          · intro x hx
            exact (isSpace_iff x).1 (List.all_eq_true.1 List.all_takeWhile x (List.mem_reverse.1 hx))
          · have := (pyInt_iff _ _).1 hn
            simpa using this
        · cases hn
      · cases hn
    · rintro ⟨n, hn | ⟨u, d, c, w, rfl, hd, hc, hw, hn⟩⟩
      · exact absurd hn (hno n)
      · have e : (u ++ [d, c] ++ w).reverse.dropWhile isSpace = c :: d :: u.reverse := by
          have hw' : ∀ x ∈ w.reverse, isSpace x = true := fun x hx => (isSpace_iff x).2 (hw x (List.mem_reverse.1 hx))
          have hcs : isSpace c = false := by rcases hc with rfl | rfl <;> decide
          simp only [List.reverse_append, List.reverse_cons, List.reverse_nil, List.nil_append, List.cons_append]
          rw [List.dropWhile_append_of_pos hw', List.dropWhile_cons_of_neg (by simp [hcs])]
        have hp := (pyInt_iff _ _).2 hn
        have hcc : ((decide (c = 'l') || decide (c = 'L')) && d.isDigit) = true := by
          rw [hd, Bool.and_true, Bool.or_eq_true]
          rcases hc with rfl | rfl
          · exact .inl rfl
          · exact .inr rfl
        simp only [e]
        rw [if_pos hcc]
        simp only [List.reverse_cons, List.reverse_reverse]
        rw [hp]; rfl

theorem number_tag (n : Xml) (t : String) (b : Basic) (N : Str → Int → Prop) (hb : ∀ u, (cons b u).isSome = true ↔ ∃ n, N u n) :
    (decM (.basic (Classes.s t) b false) n).isSome = true ↔ ∀ y, First n (s t) y → Bare y ∧ Number N y := by
  rw [opt_tag]
  refine forall_congr' fun y => forall_congr' fun _ => and_congr_right fun _ => ?_
  unfold Number
  refine forall_congr' fun u => forall_congr' fun ks => forall_congr' fun _ => ?_
  rw [hb]
  constructor
  · intro h
    by_cases hs : strip u = []
    · exact .inl hs
    · exact .inr (h hs)
  · rintro (h | h) hne
    · exact absurd h hne
    · exact h

theorem may_number (n : Xml) (t : String) : (decM (.basic (Classes.s t) .long false) n).isSome = true ↔ MayNumber n t :=
  number_tag n t .long LongNumber (fun u => by rw [← pyLong_iff]; simp [cons])

theorem may_int (n : Xml) (t : String) : (decM (.basic (Classes.s t) .int false) n).isSome = true ↔ MayInt n t :=
  number_tag n t .int Pisi.Version.Spec.Number (fun u => by simp only [cons, Option.isSome_map, Option.isSome_iff_exists, pyInt_iff])

theorem has_number (n : Xml) (t : String) : (decM (.basic (Classes.s t) .long true) n).isSome = true ↔ HasNumber n t := by
  unfold decM decTag HasNumber
  cases h : getNode n (Classes.s t) with
  | none =>
    simp only [decBasic_req]
    constructor
    · rintro ⟨_, ⟨⟩, _⟩
    · rintro ⟨y, hy, _⟩; exact absurd hy ((getNode_none _ _).1 h y)
  | some x =>
    have hx : First n (s t) x := (getNode_first _ _ _).1 h
    have hu : ∀ y, First n (s t) y → y = x := by
      intro y hy
      have h1 := (getNode_first _ _ _).2 hy
      change getNode n (Classes.s t) = some y at h1
      rw [h] at h1; cases h1; rfl
    have key : ((nodeText x).bind (decBasic .long true)).isSome = true ↔ Words x ∧ Number LongNumber x := by
      rw [word_text]
      rcases nodeText_cases x with ⟨u, as, cs, ks, hk, hn⟩ | ⟨hk, hn⟩ | ⟨u, ks, hk, hn⟩
      · rw [hn]; simp
      · rw [hn]; simp [decBasic]
      · rw [hn, Option.bind_some, decBasic_req]
        simp only [cons, Option.isSome_map, pyLong_iff, Option.some.injEq]
        constructor
        · rintro ⟨v, rfl, hne, hi⟩
          refine ⟨⟨_, rfl, hne⟩, ?_⟩
          intro u' ks' e
          rw [hk] at e; cases e; exact .inr hi
        · rintro ⟨⟨v, rfl, hne⟩, hi⟩
          exact ⟨_, rfl, hne, (hi u ks hk).resolve_left hne⟩
    simp only [key]
    exact ⟨fun hh => ⟨x, hx, hh⟩, fun ⟨y, hy, hh⟩ => by rw [← hu y hy]; exact hh⟩

theorem words_list_uni (n : Xml) (k : Str) (p : List Str) (t : Str) (r : Bool) :
    (decM (.basics k p t .uni r) n).isSome = true ↔
      (r = true → ∃ y, Along (p ++ [t]) n y) ∧ ∀ y, Along (p ++ [t]) n y → Words y := by
  unfold decM
  rw [decList_isSome]
  simp only [mem_getAll]
  refine and_congr Iff.rfl (forall_congr' fun y => forall_congr' fun hy => ?_)
  unfold decTag
  rw [getNode_dummy (along_tag p t n y hy), word_text]
  change ((nodeText y).bind (decBasic .uni true)).isSome = true ↔ _
  cases h : nodeText y with
  | none => simp
  | some o => rw [Option.bind_some, decBasic_req]; simp [cons]

theorem class_opt (n : Xml) (t : Str) (ms : List Member) : (decM (.cls t ms false) n).isSome = true ↔
    ∀ y, First n t y → (decode ms y).isSome = true := by
  unfold decM
  cases h : getNode n t with
  | none =>
    constructor
    · intro _ y hy; exact absurd hy ((getNode_none _ _).1 h y)
    · intro _; rfl
  | some x =>
    rw [Option.isSome_map]
    constructor
    · intro hh y hy
      have := (getNode_first _ _ _).2 hy
      rw [h] at this; cases this; exact hh
    · intro hh; exact hh x ((getNode_first _ _ _).1 h)

/-! ## C184: components, distributions and lists of files -/

theorem read_isSome (lang : Str) (ms : List Member) (n : Xml) : (read lang ms n).isSome = true ↔
    ∃ fs, decode ms n = some fs ∧ valid lang ms fs = true := by
  unfold read
  cases h : decode ms n with
  | none => simp
  | some fs =>
    by_cases hv : valid lang ms fs = true
    · simp [hv]
    · simp [hv]

theorem readable_first {lang : Str} {n : Xml} {t : String} (h : Readable lang n t) : ∃ y, First n (s t) y := by
  obtain ⟨z, hz, _⟩ := h
  exact first_exists.2 ⟨z, (along_one _ _ _).1 hz⟩

theorem loc_valid {n : Xml} {t : String} {r : Bool} {v : Val} (h : decM (.loc (Classes.s t) r) n = some v) (lang : Str) :
    validM lang (.loc (Classes.s t) r) v = true ↔ Readable lang n t := by
  obtain ⟨d, rfl, _, hl⟩ := loc_read h
  exact hl lang

theorem loc_words {n : Xml} {t : String} {r : Bool} {v : Val} (h : decM (.loc (Classes.s t) r) n = some v) : AllWords n [t] :=
  ((local_text n t r).1 (by rw [h]; rfl)).2

/-- A list of texts. -/
theorem texts_valid {k : Str} {p : List Str} {t : Str} {b : Basic} {r : Bool} {n : Xml} {v : Val}
    (h : decM (.basics k p t b r) n = some v) (lang : Str) : validM lang (.basics k p t b r) v = true := by
  unfold decM decList at h
  split at h
  · cases h
  · obtain ⟨l, hl, rfl⟩ := Option.map_eq_some_iff.1 h
    unfold validM
    rw [List.all_eq_true]
    intro x hx
    obtain ⟨y, _, e⟩ := mapM_some_mem hl x hx
    have : decM (.basic t b true) (dummy y) = some x := by unfold decM; exact e
    rcases good_tag this with ⟨_, h⟩ | h
    · cases h
    · rw [h, Bool.or_true]

/-- C184: a component is read exactly if it has a name and texts that the user can read. -/
theorem component_iff (lang : Str) (x : Xml) : (∃ fs, read lang Classes.component x = some fs) ↔ ComponentNeeds lang x := by
  rw [← Option.isSome_iff_exists, read_isSome]
  constructor
  · rintro ⟨fs, h, hv⟩
    have hs := (decode_isSome Classes.component x).1 (by rw [h]; rfl)
    have hd : ∀ m ∈ Classes.component, decM m x = some (field fs m.name) :=
      fun m hm => decode_field h (by decide +kernel) hm
    rw [valid_iff] at hv
    simp only [Classes.component, List.forall_mem_cons, tag_req, words_list] at hs hd hv
    obtain ⟨s1, s2, s3, s4, s5, s6, s7, _⟩ := hs
    obtain ⟨d1, d2, d3, d4, _⟩ := hd
    obtain ⟨v1, v2, v3, v4, _⟩ := hv
    exact ⟨s1, ⟨(loc_valid d2 lang).1 v2, loc_words d2⟩, ⟨(loc_valid d3 lang).1 v3, loc_words d3⟩,
      ⟨(loc_valid d4 lang).1 v4, loc_words d4⟩, s5.2, s6.2, s7.2⟩
  · rintro ⟨h1, h2, h3, h4, h5, h6, h7⟩
    have hs : (decode Classes.component x).isSome = true := by
      rw [decode_isSome]
      simp only [Classes.component, List.forall_mem_cons, tag_req, words_list, local_text]
      exact ⟨h1, ⟨fun _ => readable_first h2.1, h2.2⟩, ⟨fun _ => readable_first h3.1, h3.2⟩, ⟨fun _ => readable_first h4.1, h4.2⟩,
        ⟨fun h => (by cases h), h5⟩, ⟨fun h => (by cases h), h6⟩, ⟨fun h => (by cases h), h7⟩, fun _ h => (List.not_mem_nil h).elim⟩
    obtain ⟨fs, h⟩ := Option.isSome_iff_exists.1 hs
    refine ⟨fs, h, ?_⟩
    have hd : ∀ m ∈ Classes.component, decM m x = some (field fs m.name) :=
      fun m hm => decode_field h (by decide +kernel) hm
    rw [valid_iff]
    simp only [Classes.component, List.forall_mem_cons] at hd ⊢
    obtain ⟨d1, d2, d3, d4, d5, d6, d7, _⟩ := hd
    exact ⟨flat_valid (m := .basic _ _ _) trivial d1 lang, (loc_valid d2 lang).2 h2.1, (loc_valid d3 lang).2 h3.1,
      (loc_valid d4 lang).2 h4.1, texts_valid d5 lang, texts_valid d6 lang, texts_valid d7 lang, fun _ h => (List.not_mem_nil h).elim⟩

/-- A class with a member that must have texts is written only if the texts are there. -/
theorem encode_loc {t : Str} : ∀ {ms : List Member} {fs : List (Str × Val)} {n x : Xml}, encode ms fs n = some x → .loc t true ∈ ms →
    ∃ p d, field fs (mixedCase t) = .loc (p :: d)
  | [], _, _, _, _, h => (List.not_mem_nil h).elim
  | m :: ms, fs, n, x, he, h => by
    rw [encode] at he
    obtain ⟨y, hy, he⟩ := Option.bind_eq_some_iff.1 he
    rcases List.mem_cons.1 h with rfl | h
    · simp only [put, Option.map_eq_some_iff] at hy
      obtain ⟨cs, hc, _⟩ := hy
      simp only [items, Member.name, Member.token] at hc
      revert hc
      cases field fs (mixedCase t) with
      | loc l =>
        cases l with
        | nil => intro hc; simp [encLoc] at hc
        | cons p d => intro _; exact ⟨p, d, rfl⟩
      | none => intro hc; simp [encLoc] at hc
      | _ => intro hc; simp [encLoc] at hc
    · exact encode_loc he h

/-- C184: a component, and a distribution, is written only with its texts. -/
theorem component_writes {fs : List (Str × Val)} {n x : Xml} (h : encode Classes.component fs n = some x) :
    ∀ t ∈ ["localName", "summary", "description"], ∃ p d, field fs (s t) = .loc (p :: d) := by
  intro t ht
  simp only [List.mem_cons, List.not_mem_nil, or_false] at ht
  rcases ht with rfl | rfl | rfl
  · exact encode_loc (t := s "LocalName") h (by simp [Classes.component, s, Classes.s])
  · exact encode_loc (t := s "Summary") h (by simp [Classes.component, s, Classes.s])
  · exact encode_loc (t := s "Description") h (by simp [Classes.component, s, Classes.s])

theorem distribution_writes {fs : List (Str × Val)} {n x : Xml} (h : encode Classes.distribution fs n = some x) :
    ∃ p d, field fs (s "description") = .loc (p :: d) :=
  encode_loc (t := s "Description") h (by simp [Classes.distribution, s, Classes.s])

example : (∃ x, encode Classes.component [(s "name", .str (s "a")), (s "localName", .loc [(s "en", s "A")]), (s "summary", .loc [(s "en", s "S")]),
      (s "description", .loc [(s "en", s "D")])] (.elem (s "PISI") [] []) = some x) ∧
    encode Classes.component [(s "name", .str (s "a")), (s "localName", .loc [(s "en", s "A")]), (s "summary", .loc []),
      (s "description", .loc [(s "en", s "D")])] (.elem (s "PISI") [] []) = none := by
  refine ⟨Option.isSome_iff_exists.1 (by decide +kernel), Option.isNone_iff_eq_none.1 (by decide +kernel)⟩

/-- C184: the same for distributions. -/
theorem distribution_iff (lang : Str) (x : Xml) : (∃ fs, read lang Classes.distribution x = some fs) ↔ DistributionNeeds lang x := by
  rw [← Option.isSome_iff_exists, read_isSome]
  constructor
  · rintro ⟨fs, h, hv⟩
    have hs := (decode_isSome Classes.distribution x).1 (by rw [h]; rfl)
    have hd : ∀ m ∈ Classes.distribution, decM m x = some (field fs m.name) :=
      fun m hm => decode_field h (by decide +kernel) hm
    rw [valid_iff] at hv
    simp only [Classes.distribution, List.forall_mem_cons, tag_req_uni, words_list_uni, may_text] at hs hd hv
    obtain ⟨s1, s2, s3, s4, s5, s6, s7, _⟩ := hs
    obtain ⟨d1, d2, _⟩ := hd
    obtain ⟨v1, v2, _⟩ := hv
    exact ⟨s1, ⟨(loc_valid d2 lang).1 v2, loc_words d2⟩, s3, s4, s5.2, s6, s7⟩
  · rintro ⟨h1, h2, h3, h4, h5, h6, h7⟩
    have hs : (decode Classes.distribution x).isSome = true := by
      rw [decode_isSome]
      simp only [Classes.distribution, List.forall_mem_cons, tag_req_uni, words_list_uni, local_text, may_text]
      exact ⟨h1, ⟨fun _ => readable_first h2.1, h2.2⟩, h3, h4, ⟨fun h => (by cases h), h5⟩, h6, h7, fun _ h => (List.not_mem_nil h).elim⟩
    obtain ⟨fs, h⟩ := Option.isSome_iff_exists.1 hs
    refine ⟨fs, h, ?_⟩
    have hd : ∀ m ∈ Classes.distribution, decM m x = some (field fs m.name) :=
      fun m hm => decode_field h (by decide +kernel) hm
    rw [valid_iff]
    simp only [Classes.distribution, List.forall_mem_cons] at hd ⊢
    obtain ⟨d1, d2, d3, d4, d5, d6, d7, _⟩ := hd
    exact ⟨flat_valid (m := .basic _ _ _) trivial d1 lang, (loc_valid d2 lang).2 h2.1, flat_valid (m := .basic _ _ _) trivial d3 lang,
      flat_valid (m := .basic _ _ _) trivial d4 lang, texts_valid d5 lang, flat_valid (m := .basic _ _ _) trivial d6 lang,
      flat_valid (m := .basic _ _ _) trivial d7 lang, fun _ h => (List.not_mem_nil h).elim⟩

theorem file_reads (y : Xml) : (decode Classes.fileInfo y).isSome = true ↔ FileNeeds y := by
  rw [decode_isSome]
  simp only [Classes.fileInfo, List.forall_mem_cons, tag_req, may_plain, may_number]
  constructor
  · rintro ⟨h1, h2, h3, h4, h5, _⟩; exact ⟨h1, h2, h3, h4, h5⟩
  · rintro ⟨h1, h2, h3, h4, h5⟩; exact ⟨h1, h2, h3, h4, h5, fun _ h => (List.not_mem_nil h).elim⟩

/-- C184: a list of files is read exactly if every entry has a path and a type, and numbers for sizes. -/
theorem files_iff (lang : Str) (x : Xml) : (∃ fs, read lang Classes.files x = some fs) ↔ ∀ y, Along [s "File"] x y → FileNeeds y := by
  rw [← Option.isSome_iff_exists, read_isSome]
  have hi : (decode Classes.files x).isSome = true ↔ ∀ y, Along [s "File"] x y → FileNeeds y := by
    rw [decode_isSome]
    simp only [Classes.files, List.forall_mem_cons, class_list, file_reads]
    constructor
    · rintro ⟨⟨_, h⟩, _⟩; exact h
    · intro h; exact ⟨⟨fun h => (by cases h), h⟩, fun _ h => (List.not_mem_nil h).elim⟩
  rw [← hi]
  constructor
  · rintro ⟨fs, h, _⟩; rw [h]; rfl
  · intro hs
    obtain ⟨fs, h⟩ := Option.isSome_iff_exists.1 hs
    refine ⟨fs, h, ?_⟩
    have hd : ∀ m ∈ Classes.files, decM m x = some (field fs m.name) := fun m hm => decode_field h (by decide +kernel) hm
    rw [valid_iff]
    simp only [Classes.files, List.forall_mem_cons] at hd ⊢
    exact ⟨list_valid (by simp [Classes.fileInfo, Flat]) (by decide +kernel) hd.1 lang, fun _ h => (List.not_mem_nil h).elim⟩

example : ∃ n, LongNumber (s "-12L") n := ⟨-12, .inr ⟨s "-1", '2', 'L', [], rfl, rfl, .inr rfl, fun _ h => (List.not_mem_nil h).elim,
  (pyInt_iff _ _).1 (by decide)⟩⟩

def aFile (k : List Xml) : Xml := .elem (s "Files") [] [.text (s "\n"), .elem (s "File") [] ([leafOf "Path" "usr/bin/a", leafOf "Type" "executable"] ++ k)]

example : (∃ fs, read (s "en") Classes.files (aFile [leafOf "Size" " 12\n"]) = some fs) ∧
    ¬ ∃ fs, read (s "en") Classes.files (aFile [leafOf "Size" "12k"]) = some fs := by
  have h : (read (s "en") Classes.files (aFile [leafOf "Size" " 12\n"])).isSome = true ∧
    (read (s "en") Classes.files (aFile [leafOf "Size" "12k"])).isSome = false := by decide +kernel
  refine ⟨Option.isSome_iff_exists.1 h.1, fun he => ?_⟩
  rw [Option.isSome_iff_exists.2 he] at h
  cases h.2

/-! ## C185: metadata -/

theorem path_reads_any (y : Xml) : (decode Classes.path y).isSome = true ↔ Word y ∧ PlainAttr y "fileType" ∧ PlainAttr y "permanent" := by
  rw [decode_isSome]
  simp only [Classes.path, List.forall_mem_cons, own_text, attr_opt]
  constructor
  · rintro ⟨h1, h2, h3, _⟩; exact ⟨h1, h2, h3⟩
  · rintro ⟨h1, h2, h3⟩; exact ⟨h1, h2, h3, fun _ h => (List.not_mem_nil h).elim⟩

theorem update_reads_any (y : Xml) : (decode Classes.update y).isSome = true ↔ UpdateTells y := by
  rw [decode_isSome]
  simp only [Classes.update, List.forall_mem_cons, attr_req, tag_req, may_plain, may_text]
  constructor
  · rintro ⟨h1, h2, h3, h4, h5, h6, h7, _⟩; exact ⟨h1, h2, h3, h4, h5, h6, h7⟩
  · rintro ⟨h1, h2, h3, h4, h5, h6, h7⟩; exact ⟨h1, h2, h3, h4, h5, h6, h7, fun _ h => (List.not_mem_nil h).elim⟩

theorem meta_source_reads (y : Xml) : (decode Classes.metaSource y).isSome = true ↔ MetaSourceNeeds y := by
  rw [decode_isSome]
  simp only [Classes.metaSource, List.forall_mem_cons, tag_req, may_plain, class_req, packager_reads]
  constructor
  · rintro ⟨h1, h2, h3, _⟩; exact ⟨h1, h2, h3⟩
  · rintro ⟨h1, h2, h3⟩; exact ⟨h1, h2, h3, fun _ h => (List.not_mem_nil h).elim⟩

/-- Reading a member that is mandatory gives what reading it as an optional member gives. -/
theorem req_opt {t : Str} {b : Basic} {n : Xml} {v : Val} (h : decM (.basic t b true) n = some v) :
    decM (.basic t b false) n = some v := by
  have hb : ∀ o, decBasic b true o = some v → decBasic b false o = some v := by
    intro o ho
    unfold decBasic at ho ⊢
    split at ho
    · exact ho
    · cases ho
  unfold decM decTag at h ⊢
  split at h
  · rename_i x hx
    obtain ⟨o, ho, hv⟩ := Option.bind_eq_some_iff.1 h
    exact Option.bind_eq_some_iff.2 ⟨o, ho, hb o hv⟩
  · exact hb _ h

/-- `decode_field` for classes in which a member is declared again. -/
theorem decode_field_same {ms : List Member} {n : Xml} {fs : List (Str × Val)} (h : decode ms n = some fs)
    {m : Member} (hm : m ∈ ms) (hs : ∀ m' ∈ ms, m'.name = m.name → decM m' n = decM m n) :
    decM m n = some (field fs m.name) := by
  induction ms generalizing fs with
  | nil => cases hm
  | cons k ms ih =>
    obtain ⟨v, fs', h1, h2, rfl⟩ := decode_cons h
    rw [field_cons]
    by_cases e : k.name = m.name
    · rw [if_pos e, ← hs k List.mem_cons_self e]; exact h1
    · rw [if_neg e]
      rcases List.mem_cons.1 hm with rfl | hm
      · exact absurd rfl e
      · exact ih h2 hm (fun m' hm' => hs m' (List.mem_cons_of_mem _ hm'))

/-- The package of metadata, without the validation. -/
structure MetaPackageReads (x : Xml) : Prop where
  name : HasWord x "Name"
  summary : AllWords x ["Summary"]
  description : AllWords x ["Description"]
  isA : AllWord x ["IsA"]
  partOf : HasWord x "PartOf"
  license : AllWord x ["License"]
  icon : MayPlain x "Icon"
  dependencies : ∀ y, Along [s "RuntimeDependencies", s "Dependency"] x y → DependencyNeeds y
  components : AllWord x ["RuntimeDependencies", "Component"]
  files : ∀ y, Along [s "Files", s "Path"] x y → Word y ∧ PlainAttr y "fileType" ∧ PlainAttr y "permanent"
  conflicts : AllWord x ["Conflicts", "Package"]
  comar : ∀ y, Along [s "Provides", s "COMAR"] x y → Word y ∧ HasAttr y "script"
  additional : ∀ y, Along [s "AdditionalFiles", s "AdditionalFile"] x y → Word y ∧ HasAttr y "target" ∧
    PlainAttr y "permission"
  history : ∀ y, Along [s "History", s "Update"] x y → UpdateTells y
  build : MayInt x "Build"
  distribution : HasWord x "Distribution"
  distributionRelease : HasWord x "DistributionRelease"
  architecture : HasWord x "Architecture"
  installedSize : HasNumber x "InstalledSize"
  packageSize : MayNumber x "PackageSize"
  packageURI : MayPlain x "PackageURI"
  packageFormat : MayPlain x "PackageFormat"
  source : ∀ y, First x (s "Source") y → MetaSourceNeeds y

theorem meta_package_reads (y : Xml) : (decode Classes.metaPackage y).isSome = true ↔ MetaPackageReads y := by
  rw [decode_isSome]
  simp only [Classes.metaPackage, Classes.specPackage, List.cons_append, List.nil_append, List.forall_mem_cons, tag_req, local_text,
    words_list, class_list, class_opt, dependency_reads, comar_reads, additional_reads, path_reads_any, update_reads_any,
    meta_source_reads, may_plain, may_number, may_int, has_number,
    Bool.false_eq_true, false_implies, true_and]
  constructor
  · rintro ⟨h1, h2, h3, h4, _, h6, h7, h8, h9, h10, h11, h12, h13, h14, h15, h16, h17, h18, h19, h20, h21, h22, h23, h24, _⟩
    exact ⟨h1, h2, h3, h4, h15, h6, h7, h8, h9, h10, h11, h12, h13, h14, h16, h17, h18, h19, h20, h21, h22, h23, h24⟩
  · rintro ⟨h1, h2, h3, h4, h15, h6, h7, h8, h9, h10, h11, h12, h13, h14, h16, h17, h18, h19, h20, h21, h22, h23, h24⟩
    refine ⟨h1, h2, h3, h4, ?_, h6, h7, h8, h9, h10, h11, h12, h13, h14, h15, h16, h17, h18, h19, h20, h21, h22, h23, h24,
      fun _ h => (List.not_mem_nil h).elim⟩
    have := (tag_req y "PartOf").2 h15
    obtain ⟨v, hv⟩ := Option.isSome_iff_exists.1 this
    exact (may_plain y "PartOf").1 (by rw [req_opt hv]; rfl)

theorem meta_fields {y : Xml} {fs : List (Str × Val)} (h : decode Classes.metaPackage y = some fs) :
    ∀ m ∈ Classes.metaPackage, decM m y = some (field fs m.name) := by
  have hr : ∃ v, decM (.basic (Classes.s "PartOf") .str true) y = some v :=
    Option.isSome_iff_exists.1 ((decode_isSome Classes.metaPackage y).1 (by rw [h]; rfl) _ (by simp [Classes.metaPackage]))
  obtain ⟨v, hv⟩ := hr
  have hp : ∀ r, decM (.basic (Classes.s "PartOf") .str r) y = some v := by
    intro r; cases r
    · exact req_opt hv
    · exact hv
  have hn : ∀ i j : Fin Classes.metaPackage.length,
      (Classes.metaPackage.get i).name = (Classes.metaPackage.get j).name →
      i = j ∨ (i.1 ∈ [4, 14] ∧ j.1 ∈ [4, 14]) := by decide +kernel
  have ho : ∀ i : Fin Classes.metaPackage.length, i.1 ∈ [4, 14] → ∃ r, Classes.metaPackage.get i = .basic (Classes.s "PartOf") .str r := by
    rintro ⟨i, hi⟩ hm
    simp only [List.mem_cons, List.not_mem_nil, or_false] at hm
    rcases hm with rfl | rfl
    · exact ⟨false, rfl⟩
    · exact ⟨true, rfl⟩
  intro m hm
  refine decode_field_same h hm (fun m' hm' e => ?_)
  obtain ⟨i, rfl⟩ := List.get_of_mem hm
  obtain ⟨j, rfl⟩ := List.get_of_mem hm'
  rcases hn _ _ e with h | ⟨h1, h2⟩
  · rw [h]
  · obtain ⟨r, hr⟩ := ho _ h1
    obtain ⟨r', hr'⟩ := ho _ h2
    rw [hr, hr', hp, hp]

theorem packager_valid {n : Xml} {v : Val} (h : decM (.cls (Classes.s "Packager") Classes.packager true) n = some v) (lang : Str) :
    validM lang (.cls (Classes.s "Packager") Classes.packager true) v = true :=
  cls_valid (by simp [Classes.packager, Flat]) (by decide +kernel) h lang

theorem meta_source_valid {y : Xml} {fs : List (Str × Val)} (h : decode Classes.metaSource y = some fs) (lang : Str) :
    valid lang Classes.metaSource fs = true := by
  have hd : ∀ m ∈ Classes.metaSource, decM m y = some (field fs m.name) := fun m hm => decode_field h (by decide +kernel) hm
  rw [valid_iff]
  simp only [Classes.metaSource, List.forall_mem_cons] at hd ⊢
  exact ⟨flat_valid (m := .basic _ _ _) trivial hd.1 lang, flat_valid (m := .basic _ _ _) trivial hd.2.1 lang,
    packager_valid hd.2.2.1 lang, fun _ h => (List.not_mem_nil h).elim⟩

theorem meta_source_member {n : Xml} {v : Val} {r : Bool} (h : decM (.cls (Classes.s "Source") Classes.metaSource r) n = some v) (lang : Str) :
    validM lang (.cls (Classes.s "Source") Classes.metaSource r) v = true := by
  unfold decM at h
  split at h
  · obtain ⟨fs, hfs, rfl⟩ := Option.map_eq_some_iff.1 h
    exact meta_source_valid hfs lang
  · cases r
    · cases h; rfl
    · cases h

theorem meta_package_valid {y : Xml} {fs : List (Str × Val)} (h : decode Classes.metaPackage y = some fs) (lang : Str) :
    valid lang Classes.metaPackage fs = true ↔ Readable lang y "Summary" ∧ Readable lang y "Description" := by
  have hd := meta_fields h
  rw [valid_iff]
  simp only [Classes.metaPackage, Classes.specPackage, List.cons_append, List.nil_append, List.forall_mem_cons] at hd ⊢
  obtain ⟨d1, d2, d3, d4, d5, d6, d7, d8, d9, d10, d11, d12, d13, d14, d15, d16, d17, d18, d19, d20, d21, d22, d23, d24, _⟩ := hd
  rw [loc_valid d2, loc_valid d3]
  constructor
  · rintro ⟨_, h1, h2, _⟩; exact ⟨h1, h2⟩
  · rintro ⟨h1, h2⟩
    have f : ∀ {m : Member} (_ : Flat m) {v : Val}, decM m y = some v → validM lang m v = true := fun hm _ hv => flat_valid hm hv lang
    exact ⟨f (m := .basic _ _ _) trivial d1, h1, h2, texts_valid d4 lang, f (m := .basic _ _ _) trivial d5, texts_valid d6 lang,
      f (m := .basic _ _ _) trivial d7, list_valid (by simp [Classes.dependency, Flat]) (by decide +kernel) d8 lang,
      texts_valid d9 lang, list_valid (by simp [Classes.path, Flat]) (by decide +kernel) d10 lang, texts_valid d11 lang,
      list_valid (by simp [Classes.comarProvide, Flat]) (by decide +kernel) d12 lang,
      list_valid (by simp [Classes.additionalFile, Flat]) (by decide +kernel) d13 lang,
      list_valid update_flat update_names d14 lang,
      f (m := .basic _ _ _) trivial d15, f (m := .basic _ _ _) trivial d16, f (m := .basic _ _ _) trivial d17,
      f (m := .basic _ _ _) trivial d18, f (m := .basic _ _ _) trivial d19, f (m := .basic _ _ _) trivial d20,
      f (m := .basic _ _ _) trivial d21, f (m := .basic _ _ _) trivial d22, f (m := .basic _ _ _) trivial d23,
      meta_source_member d24 lang, fun _ h => (List.not_mem_nil h).elim⟩

theorem meta_needs {lang : Str} {y : Xml} : MetaPackageNeeds lang y ↔ MetaPackageReads y ∧ Readable lang y "Summary" ∧
    Readable lang y "Description" ∧ ∃ z, Along [s "History", s "Update"] y z := by
  constructor
  · rintro ⟨h1, h2, h3, h4, h5, h6, h7, h8, h9, h10, h11, h12, h13, h14, hu, h15, h16, h17, h18, h19, h20, h21, h22, h23⟩
    exact ⟨⟨h1, h2.2, h3.2, h4, h5, h6, h7, h8, h9, h10, h11, h12, h13, h14, h15, h16, h17, h18, h19, h20, h21, h22, h23⟩, h2.1, h3.1, hu⟩
  · rintro ⟨⟨h1, h2, h3, h4, h5, h6, h7, h8, h9, h10, h11, h12, h13, h14, h15, h16, h17, h18, h19, h20, h21, h22, h23⟩, r1, r2, hu⟩
    exact ⟨h1, ⟨r1, h2⟩, ⟨r2, h3⟩, h4, h5, h6, h7, h8, h9, h10, h11, h12, h13, h14, hu, h15, h16, h17, h18, h19, h20, h21, h22, h23⟩

/-- C185: metadata is read exactly if everything that the files of packages promise is there. -/
theorem meta_iff (lang : Str) (x : Xml) : (∃ fs, readMeta lang x = some fs) ↔ MetaNeeds lang x := by
  have hi : (decode Classes.metaData x).isSome = true ↔ (∃ y, First x (s "Source") y ∧ MetaSourceNeeds y) ∧
      ∃ y, First x (s "Package") y ∧ MetaPackageReads y := by
    rw [decode_isSome]
    simp only [Classes.metaData, List.forall_mem_cons, class_req, meta_source_reads, meta_package_reads]
    constructor
    · rintro ⟨h1, h2, _⟩; exact ⟨h1, h2⟩
    · rintro ⟨h1, h2⟩; exact ⟨h1, h2, fun _ h => (List.not_mem_nil h).elim⟩
  cases h : decode Classes.metaData x with
  | none =>
    rw [h] at hi
    constructor
    · rintro ⟨fs, e⟩; unfold readMeta at e; rw [h] at e; cases e
    · rintro ⟨h1, y, hy, h2⟩
      cases hi.2 ⟨h1, y, hy, (meta_needs.1 h2).1⟩
  | some fs =>
    rw [h] at hi
    obtain ⟨hsrc, y, hy, hpk⟩ := hi.1 rfl
    have hd : ∀ m ∈ Classes.metaData, decM m x = some (field fs m.name) := fun m hm => decode_field h (by decide +kernel) hm
    simp only [Classes.metaData, List.forall_mem_cons] at hd
    obtain ⟨d1, d2, _⟩ := hd
    have hobj : ∃ pf, decode Classes.metaPackage y = some pf ∧ field fs (Classes.s "package") = .obj pf := by
      unfold decM at d2
      have hg : getNode x (Classes.s "Package") = some y := (getNode_first _ _ _).2 hy
      rw [hg] at d2
      obtain ⟨pf, h1, h2⟩ := Option.map_eq_some_iff.1 d2
      exact ⟨pf, h1, h2.symm⟩
    obtain ⟨pf, hpf, ep⟩ := hobj
    have hhist : (field pf (Classes.s "history")).items.isEmpty = false ↔ ∃ z, Along [s "History", s "Update"] y z := by
      have hm := meta_fields hpf (.clss (Classes.s "History") [Classes.s "History"] (Classes.s "Update") Classes.update false)
        (by simp [Classes.metaPackage, Classes.specPackage])
      obtain ⟨l, el, _, ha, hb⟩ := list_read hm
      have el : field pf (Classes.s "history") = .list l := el
      rw [el]
      change l.isEmpty = false ↔ _
      constructor
      · intro hne
        cases l with
        | nil => cases hne
        | cons w l =>
          obtain ⟨z, _, hz, _⟩ := ha w List.mem_cons_self
          exact ⟨z, hz⟩
      · rintro ⟨z, hz⟩
        obtain ⟨_, _, hm⟩ := hb z hz
        cases l with
        | nil => cases hm
        | cons => rfl
    have hval : valid lang Classes.metaData fs = true ↔ Readable lang y "Summary" ∧ Readable lang y "Description" := by
      rw [valid_iff, ← meta_package_valid hpf lang]
      simp only [Classes.metaData, List.forall_mem_cons]
      have e2 : validM lang (.cls (Classes.s "Package") Classes.metaPackage true)
          (field fs (Member.cls (Classes.s "Package") Classes.metaPackage true).name) = valid lang Classes.metaPackage pf := by
        have : (Member.cls (Classes.s "Package") Classes.metaPackage true).name = Classes.s "package" := by decide +kernel
        rw [this, ep]; rfl
      rw [e2]
      constructor
      · rintro ⟨_, h, _⟩; exact h
      · intro h; exact ⟨meta_source_member d1 lang, h, fun _ h => (List.not_mem_nil h).elim⟩
    have hu : ∀ z, First x (s "Package") z → z = y := by
      intro z hz
      have h1 := (getNode_first _ _ _).2 hz
      rw [(getNode_first _ _ _).2 hy] at h1; cases h1; rfl
    unfold readMeta
    rw [h]
    simp only [ep, Val.dot]
    constructor
    · rintro ⟨fs', e⟩
      cases he : (field pf (Classes.s "history")).items.isEmpty with
      | true => rw [he, if_pos rfl] at e; cases e
      | false =>
        rw [he, if_neg (by simp)] at e
        by_cases hv : valid lang Classes.metaData fs = true
        · obtain ⟨r1, r2⟩ := hval.1 hv
          exact ⟨hsrc, y, hy, meta_needs.2 ⟨hpk, r1, r2, hhist.1 he⟩⟩
        · rw [if_neg hv] at e; cases e
    · rintro ⟨_, z, hz, hn⟩
      obtain rfl := hu z hz
      obtain ⟨_, r1, r2, hh⟩ := meta_needs.1 hn
      refine ⟨fs, ?_⟩
      rw [hhist.2 hh, if_neg (by simp), if_pos (hval.2 ⟨r1, r2⟩)]

def aMeta (size : String) (hist : List Xml) : Xml := .elem (s "PISI") [] [
  .elem (s "Source") [] [leafOf "Name" "a", .elem (s "Packager") [] [leafOf "Name" "X", leafOf "Email" "x"]],
  .elem (s "Package") [] [leafOf "Name" "a", leafOf "Summary" "S", leafOf "Description" "D", leafOf "PartOf" "p", leafOf "License" "l",
    .elem (s "History") [] hist, leafOf "Distribution" "d", leafOf "DistributionRelease" "1", leafOf "Architecture" "any",
    leafOf "InstalledSize" size]]

def anUpdate : Xml := .elem (s "Update") [(s "release", s "1")] [leafOf "Date" "2005", leafOf "Version" "1.0"]

example : (∃ fs, readMeta (s "tr") (aMeta "10" [anUpdate]) = some fs) ∧ (¬ ∃ fs, readMeta (s "tr") (aMeta "" [anUpdate]) = some fs) ∧
    ¬ ∃ fs, readMeta (s "tr") (aMeta "10" []) = some fs := by
  have h : (readMeta (s "tr") (aMeta "10" [anUpdate])).isSome = true ∧ (readMeta (s "tr") (aMeta "" [anUpdate])).isSome = false ∧
    (readMeta (s "tr") (aMeta "10" [])).isSome = false := by decide +kernel
  refine ⟨Option.isSome_iff_exists.1 h.1, fun he => ?_, fun he => ?_⟩
  · have := h.2.1; rw [Option.isSome_iff_exists.2 he] at this; cases this
  · have := h.2.2; rw [Option.isSome_iff_exists.2 he] at this; cases this

end Pisi.Xml.Dtd
