import Verif.Lemmas.Dtd

/-!
# Specifications that are valid for pisi-spec.dtd: C182, C183
-/
namespace Pisi.Xml.Dtd
open Pisi.Path

/-! ## The declarations -/

theorem dPisi : (s "PISI", { content := .seq [(s "Source", .one), (s "Package", .plus), (s "History", .one)] }) ∈ dtd :=
  List.mem_of_getElem? (i := 0) rfl

/-- Declared as text without attributes. -/
def TextTags : List Str := [s "Name", s "Homepage", s "Icon", s "Email", s "License", s "IsA", s "PartOf", s "Date",
  s "Version", s "Comment"]

theorem text_decl {t : Str} (h : t ∈ TextTags) : (t, { content := .text }) ∈ dtd := by
  simp only [TextTags, List.mem_cons, List.not_mem_nil, or_false] at h
  rcases h with rfl | rfl | rfl | rfl | rfl | rfl | rfl | rfl | rfl | rfl
  · exact List.mem_of_getElem? (i := 2) rfl
  · exact List.mem_of_getElem? (i := 3) rfl
  · exact List.mem_of_getElem? (i := 4) rfl
  · exact List.mem_of_getElem? (i := 6) rfl
  · exact List.mem_of_getElem? (i := 7) rfl
  · exact List.mem_of_getElem? (i := 8) rfl
  · exact List.mem_of_getElem? (i := 9) rfl
  · exact List.mem_of_getElem? (i := 28) rfl
  · exact List.mem_of_getElem? (i := 29) rfl
  · exact List.mem_of_getElem? (i := 30) rfl

theorem text_leaf {x : Xml} (hv : ∀ k ∈ x.kids, Valid k) {t : Str} (h : t ∈ TextTags) :
    ∀ y ∈ x.kids, y.isTag t = true → Leaf y :=
  fun y hy ht => leaf_of (hv y hy) ht (text_decl h) rfl

theorem getAttr_mem {x : Xml} {a v : Str} (h : getAttr x a = some v) : ∃ t as ks, x = .elem t as ks ∧ (a, v) ∈ as := by
  cases x with
  | text t => cases h
  | elem t as ks =>
    refine ⟨t, as, ks, rfl, ?_⟩
    unfold getAttr at h
    simp only [Option.map_eq_some_iff] at h
    obtain ⟨p, hp, rfl⟩ := h
    have h1 := List.find?_some hp
    have h2 := List.mem_of_find?_eq_some hp
    have : p.1 = a := of_decide_eq_true h1
    rw [← this]; exact h2

theorem absent_tag {n : Xml} {t : String} (h : ∀ y ∈ n.kids, y.isTag (s t) = false) :
    (decM (.basic (Classes.s t) .str false) n).isSome = true := by
  refine (tag_opt n t (fun y hy ht => ?_)).2 (fun y hy => ?_)
  · rw [h y hy] at ht; cases ht
  · have := first_kid hy
    rw [h y this.1] at this; cases this.2

theorem decode_none_along {n : Xml} {t : Str} {p : List Str} (h : ∀ y ∈ n.kids, y.isTag t = false) : ∀ y, ¬ Along (t :: p) n y := by
  intro y hy
  cases hy with
  | down _ _ _ x _ h1 h2 _ => rw [h x h1] at h2; cases h2

/-! ## Classes -/

theorem dependency_reads (y : Xml) : (decode Classes.dependency y).isSome = true ↔ DependencyNeeds y := by
  rw [decode_isSome]
  simp only [Classes.dependency, List.forall_mem_cons, own_text, attr_opt]
  constructor
  · rintro ⟨h1, h2, h3, h4, h5, h6, h7, _⟩; exact ⟨h1, h2, h3, h4, h5, h6, h7⟩
  · rintro ⟨h1, h2, h3, h4, h5, h6, h7⟩; exact ⟨h1, h2, h3, h4, h5, h6, h7, fun _ h => by cases h⟩

theorem patch_reads (y : Xml) : (decode Classes.patch y).isSome = true ↔
    Word y ∧ PlainAttr y "compressionType" ∧ IntAttr y "level" ∧ PlainAttr y "target" := by
  rw [decode_isSome]
  simp only [Classes.patch, List.forall_mem_cons, own_text, attr_opt, attr_int]
  constructor
  · rintro ⟨h1, h2, h3, h4, _⟩; exact ⟨h1, h2, h3, h4⟩
  · rintro ⟨h1, h2, h3, h4⟩; exact ⟨h1, h2, h3, h4, fun _ h => by cases h⟩

theorem comar_reads (y : Xml) : (decode Classes.comarProvide y).isSome = true ↔ Word y ∧ HasAttr y "script" := by
  rw [decode_isSome]
  simp only [Classes.comarProvide, List.forall_mem_cons, own_text, attr_req]
  constructor
  · rintro ⟨h1, h2, _⟩; exact ⟨h1, h2⟩
  · rintro ⟨h1, h2⟩; exact ⟨h1, h2, fun _ h => by cases h⟩

theorem additional_reads (y : Xml) : (decode Classes.additionalFile y).isSome = true ↔
    Word y ∧ HasAttr y "target" ∧ PlainAttr y "permission" := by
  rw [decode_isSome]
  simp only [Classes.additionalFile, List.forall_mem_cons, own_text, attr_req, attr_opt]
  constructor
  · rintro ⟨h1, h2, h3, _⟩; exact ⟨h1, h2, h3⟩
  · rintro ⟨h1, h2, h3⟩; exact ⟨h1, h2, h3, fun _ h => by cases h⟩

theorem packager_reads (y : Xml) : (decode Classes.packager y).isSome = true ↔ HasWords y "Name" ∧ HasWord y "Email" := by
  rw [decode_isSome]
  simp only [Classes.packager, List.forall_mem_cons, tag_req, tag_req_uni]
  constructor
  · rintro ⟨h1, h2, _⟩; exact ⟨h1, h2⟩
  · rintro ⟨h1, h2⟩; exact ⟨h1, h2, fun _ h => by cases h⟩

theorem archive_attr {y : Xml} (hv : Valid y) (ht : y.isTag (s "Archive") = true) : ∀ v, getAttr y (s "norootdir") ≠ some v := by
  intro v h
  obtain ⟨⟨as, e, ha⟩, _, _⟩ := valid_inv hv ht (List.mem_of_getElem? (i := 12) rfl)
  obtain ⟨t, as', ks, e', hm⟩ := getAttr_mem h
  rw [e] at e'
  cases e'
  obtain ⟨d, hd, hn, _⟩ := ha.declared _ hm
  simp only [List.mem_cons, List.not_mem_nil, or_false] at hd
  rcases hd with rfl | rfl
  · have hn : s "sha1sum" = s "norootdir" := hn
    exact absurd hn (by decide)
  · have hn : s "type" = s "norootdir" := hn
    exact absurd hn (by decide)

theorem archive_reads {y : Xml} (hv : Valid y) (ht : y.isTag (s "Archive") = true) : (decode Classes.archive y).isSome = true ↔
    Word y ∧ HasAttr y "type" ∧ HasAttr y "sha1sum" := by
  rw [decode_isSome]
  simp only [Classes.archive, List.forall_mem_cons, own_text, attr_req, attr_opt]
  constructor
  · rintro ⟨h1, h2, h3, _⟩; exact ⟨h1, h2, h3⟩
  · rintro ⟨h1, h2, h3⟩
    exact ⟨h1, h2, h3, fun v h => absurd h (archive_attr hv ht v), fun _ h => by cases h⟩

def fileTypes : List Str := [s "executable", s "library", s "data", s "config", s "doc", s "man", s "info", s "localedata",
  s "header"]

theorem path_attr {y : Xml} (hv : Valid y) (ht : y.isTag (s "Path") = true) : PlainAttr y "fileType" ∧ PlainAttr y "permanent" := by
  obtain ⟨⟨as, e, ha⟩, _, _⟩ := valid_inv hv ht (List.mem_of_getElem? (i := 25) rfl)
  have key : ∀ a v, getAttr y a = some v → v ∈ fileTypes ∨ v ∈ [s "false", s "true"] := by
    intro a v h
    obtain ⟨t, as', ks, e', hm⟩ := getAttr_mem h
    rw [e] at e'
    cases e'
    obtain ⟨d, hd, _, ho⟩ := ha.declared _ hm
    rcases List.mem_cons.1 hd with rfl | hd
    · exact .inl ho
    · rcases List.mem_cons.1 hd with rfl | hd
      · exact .inr ho
      · cases hd
  have asc : (∀ v ∈ fileTypes, ascii v = true) ∧ ∀ v ∈ [s "false", s "true"], ascii v = true := by decide +kernel
  have all : ∀ a v, getAttr y a = some v → Ascii v := fun a v h =>
    (ascii_iff v).1 ((key a v h).elim (asc.1 v) (asc.2 v))
  exact ⟨fun v h => all _ v h, fun v h => all _ v h⟩

theorem path_reads {y : Xml} (hv : Valid y) (ht : y.isTag (s "Path") = true) : (decode Classes.path y).isSome = true ↔ Word y := by
  rw [decode_isSome]
  simp only [Classes.path, List.forall_mem_cons, own_text, attr_opt]
  obtain ⟨h1, h2⟩ := path_attr hv ht
  constructor
  · rintro ⟨h, _⟩; exact h
  · intro h; exact ⟨h, h1, h2, fun _ h => by cases h⟩

theorem update_reads {y : Xml} (hv : Valid y) (ht : y.isTag (s "Update") = true) :
    (decode Classes.update y).isSome = true ↔ UpdateNeeds y := by
  have hd : (s "Update", _) ∈ dtd := List.mem_of_getElem? (i := 27) rfl
  obtain ⟨_, _, hk⟩ := valid_inv hv ht hd
  rw [decode_isSome]
  simp only [Classes.update, List.forall_mem_cons, attr_req, tag_req]
  rw [tag_opt y "Email" (text_leaf hk (by decide)), tag_opt y "Comment" (text_leaf hk (by decide))]
  constructor
  · rintro ⟨h1, h2, h3, _, _, h4, h5, _⟩; exact ⟨h1, h2, h3, h4, h5⟩
  · rintro ⟨h1, h2, h3, h4, h5⟩
    exact ⟨h1, h2, h3, absent_tag (kid_not hv ht hd (by decide)), tag_opt_uni y "Name" (text_leaf hk (by decide)), h4, h5,
      fun _ h => by cases h⟩

/-- What a source needs to be decoded. -/
structure SourceReads (x : Xml) : Prop where
  name : HasWord x "Name"
  homepage : PlainText x "Homepage"
  packager : ∃ y, First x (s "Packager") y ∧ HasWords y "Name" ∧ HasWord y "Email"
  summary : (∃ y, First x (s "Summary") y) ∧ AllWords x ["Summary"]
  description : (∃ y, First x (s "Description") y) ∧ AllWords x ["Description"]
  isA : AllWord x ["IsA"]
  partOf : PlainText x "PartOf"
  icon : PlainText x "Icon"
  license : (∃ y, First x (s "License") y) ∧ AllWord x ["License"]
  archive : ∃ y, First x (s "Archive") y ∧ Word y ∧ HasAttr y "type" ∧ HasAttr y "sha1sum"
  patches : ∀ y, Along [s "Patches", s "Patch"] x y → Word y ∧ PlainAttr y "compressionType" ∧ IntAttr y "level" ∧
    PlainAttr y "target"
  dependencies : ∀ y, Along [s "BuildDependencies", s "Dependency"] x y → DependencyNeeds y

theorem source_reads {y : Xml} (hv : Valid y) (ht : y.isTag (s "Source") = true) :
    (decode Classes.specSource y).isSome = true ↔ SourceReads y := by
  have hd : (s "Source", _) ∈ dtd := List.mem_of_getElem? (i := 1) rfl
  obtain ⟨_, _, hk⟩ := valid_inv hv ht hd
  rw [decode_isSome]
  simp only [Classes.specSource, List.forall_mem_cons, tag_req, class_req, local_text, words_list, class_list, packager_reads,
    patch_reads, dependency_reads]
  rw [tag_opt y "Homepage" (text_leaf hk (by decide)), tag_opt y "PartOf" (text_leaf hk (by decide)),
    tag_opt y "Icon" (text_leaf hk (by decide))]
  have hl : (∃ z, Along ([] ++ [Classes.s "License"]) y z) ↔ ∃ z, First y (s "License") z := by
    rw [first_exists]
    simp only [List.nil_append, along_one]
    exact Iff.rfl
  have har : (∃ z, First y (Classes.s "Archive") z ∧ (decode Classes.archive z).isSome = true) ↔
      ∃ z, First y (s "Archive") z ∧ Word z ∧ HasAttr z "type" ∧ HasAttr z "sha1sum" := by
    refine exists_congr fun z => and_congr_right fun hz => archive_reads (hk z (first_kid hz).1) (first_kid hz).2
  rw [har]
  simp only [hl, Bool.false_eq_true, false_implies, true_and, forall_const]
  constructor
  · rintro ⟨h1, h2, h3, h4, h5, h6, h7, h8, h9, h10, h11, h12, _⟩
    exact ⟨h1, h2, h3, h4, h5, h6, h7, h8, h9, h10, h11, h12⟩
  · rintro ⟨h1, h2, h3, h4, h5, h6, h7, h8, h9, h10, h11, h12⟩
    exact ⟨h1, h2, h3, h4, h5, h6, h7, h8, h9, h10, h11, h12, absent_tag (kid_not hv ht hd (by decide)),
      absent_tag (kid_not hv ht hd (by decide)), absent_tag (kid_not hv ht hd (by decide)), fun _ h => by cases h⟩

/-- What a package needs to be decoded. -/
structure PackageReads (x : Xml) : Prop where
  name : HasWord x "Name"
  summary : AllWords x ["Summary"]
  description : AllWords x ["Description"]
  isA : AllWord x ["IsA"]
  partOf : PlainText x "PartOf"
  license : AllWord x ["License"]
  dependencies : ∀ y, Along [s "RuntimeDependencies", s "Dependency"] x y → DependencyNeeds y
  files : AllWord x ["Files", "Path"]
  conflicts : AllWord x ["Conflicts", "Package"]
  comar : ∀ y, Along [s "Provides", s "COMAR"] x y → Word y ∧ HasAttr y "script"
  additional : ∀ y, Along [s "AdditionalFiles", s "AdditionalFile"] x y → Word y ∧ HasAttr y "target" ∧
    PlainAttr y "permission"

theorem package_reads {y : Xml} (hv : Valid y) (ht : y.isTag (s "Package") = true) :
    (decode Classes.specPackage y).isSome = true ↔ PackageReads y := by
  have hd : (s "Package", _) ∈ dtd := List.mem_of_getElem? (i := 17) rfl
  obtain ⟨_, _, hk⟩ := valid_inv hv ht hd
  rw [decode_isSome]
  simp only [Classes.specPackage, List.forall_mem_cons, tag_req, local_text, words_list, class_list,
    dependency_reads, comar_reads, additional_reads]
  rw [tag_opt y "PartOf" (text_leaf hk (by decide))]
  have hp : (∀ z, Along ([Classes.s "Files"] ++ [Classes.s "Path"]) y z → (decode Classes.path z).isSome = true) ↔
      AllWord y ["Files", "Path"] := by
    refine forall_congr' fun z => forall_congr' fun hz => ?_
    obtain ⟨f, hf, hft, hz1, hz2⟩ := (along_two _ _ _ _).1 hz
    have hvf := hk f hf
    obtain ⟨_, _, hkf⟩ := valid_inv hvf hft (List.mem_of_getElem? (i := 24) rfl)
    exact path_reads (hkf z hz1) hz2
  rw [hp]
  have hc : ∀ z, ¬ Along ([Classes.s "RuntimeDependencies"] ++ [Classes.s "Component"]) y z := by
    intro z hz
    obtain ⟨f, hf, hft, hz1, hz2⟩ := (along_two _ _ _ _).1 hz
    have := kid_not (hk f hf) hft (List.mem_of_getElem? (i := 23) rfl) (u := s "Component") (by decide) z hz1
    change z.isTag (s "Component") = true at hz2
    rw [this] at hz2; cases hz2
  have hh : ∀ z, ¬ Along ([Classes.s "History"] ++ [Classes.s "Update"]) y z :=
    decode_none_along (kid_not hv ht hd (by decide))
  simp only [Bool.false_eq_true, false_implies, true_and]
  constructor
  · rintro ⟨h1, h2, h3, h4, h5, h6, _, h7, _, h8, h9, h10, h11, _⟩
    exact ⟨h1, h2, h3, h4, h5, h6, h7, h8, h9, h10, h11⟩
  · rintro ⟨h1, h2, h3, h4, h5, h6, h7, h8, h9, h10, h11⟩
    exact ⟨h1, h2, h3, h4, h5, h6, absent_tag (kid_not hv ht hd (by decide)), h7, fun z hz => absurd hz (hc z), h8, h9, h10, h11,
      fun z hz => absurd hz (hh z), fun _ h => by cases h⟩

/-- A valid document is decoded if and only if its parts are. -/
theorem document_reads {x : Xml} (hx : Document x) : (decode Classes.specFile x).isSome = true ↔
    (∃ y, First x (s "Source") y ∧ SourceReads y) ∧ (∀ y, Along [s "Package"] x y → PackageReads y) ∧
    ∀ y, Along [s "History", s "Update"] x y → UpdateNeeds y := by
  obtain ⟨ht, hv⟩ := hx
  obtain ⟨_, _, hk⟩ := valid_inv hv ht dPisi
  rw [decode_isSome]
  simp only [Classes.specFile, List.forall_mem_cons, class_req, class_list]
  have h1 : (∃ y, First x (Classes.s "Source") y ∧ (decode Classes.specSource y).isSome = true) ↔
      ∃ y, First x (s "Source") y ∧ SourceReads y :=
    exists_congr fun z => and_congr_right fun hz => source_reads (hk z (first_kid hz).1) (first_kid hz).2
  have h2 : (∀ y, Along ([] ++ [Classes.s "Package"]) x y → (decode Classes.specPackage y).isSome = true) ↔
      ∀ y, Along [s "Package"] x y → PackageReads y := by
    refine forall_congr' fun z => forall_congr' fun hz => ?_
    obtain ⟨hz1, hz2⟩ := (along_one _ _ _).1 hz
    exact package_reads (hk z hz1) hz2
  have h3 : (∀ y, Along ([Classes.s "History"] ++ [Classes.s "Update"]) x y → (decode Classes.update y).isSome = true) ↔
      ∀ y, Along [s "History", s "Update"] x y → UpdateNeeds y := by
    refine forall_congr' fun z => forall_congr' fun hz => ?_
    obtain ⟨f, hf, hft, hz1, hz2⟩ := (along_two _ _ _ _).1 hz
    obtain ⟨_, _, hkf⟩ := valid_inv (hk f hf) hft (List.mem_of_getElem? (i := 26) rfl)
    exact update_reads (hkf z hz1) hz2
  have h4 : ∃ y, Along ([] ++ [Classes.s "Package"]) x y := by
    obtain ⟨y, hy, hyt⟩ := kid_has hv ht dPisi rfl (u := s "Package") (o := .plus) (by simp) (by simp)
    exact ⟨y, (along_one _ _ _).2 ⟨hy, hyt⟩⟩
  have h5 : ∃ y, Along ([Classes.s "History"] ++ [Classes.s "Update"]) x y := by
    obtain ⟨y, hy, hyt⟩ := kid_has hv ht dPisi rfl (u := s "History") (o := .one) (by simp) (by simp)
    obtain ⟨z, hz, hzt⟩ := kid_has (hk y hy) hyt (List.mem_of_getElem? (i := 26) rfl) rfl (u := s "Update") (o := .plus)
      (by simp) (by simp)
    exact ⟨z, (along_two _ _ _ _).2 ⟨y, hy, hyt, hz, hzt⟩⟩
  have h6 : ∀ y, ¬ Along ([] ++ [Classes.s "Component"]) x y := decode_none_along (kid_not hv ht dPisi (by decide))
  rw [h1, h2, h3]
  constructor
  · rintro ⟨a, ⟨_, b⟩, ⟨_, c⟩, _⟩; exact ⟨a, b, c⟩
  · rintro ⟨a, b, c⟩
    exact ⟨a, ⟨fun _ => h4, b⟩, ⟨fun _ => h5, c⟩, ⟨fun h => absurd h (by decide), fun y hy => absurd hy (h6 y)⟩,
      fun _ h => (List.not_mem_nil h).elim⟩

/-! ## Validation after the hook -/

theorem valid_iff (lang : Str) (ms : List Member) (fs : List (Str × Val)) :
    valid lang ms fs = true ↔ ∀ m ∈ ms, validM lang m (field fs m.name) = true := by
  induction ms with
  | nil => simp [valid]
  | cons m ms ih => unfold valid; rw [Bool.and_eq_true, ih, List.forall_mem_cons]

theorem decode_cons {m : Member} {ms : List Member} {n : Xml} {fs : List (Str × Val)} (h : decode (m :: ms) n = some fs) :
    ∃ v fs', decM m n = some v ∧ decode ms n = some fs' ∧ fs = (m.name, v) :: fs' := by
  unfold decode at h
  cases h1 : decM m n with
  | none => rw [h1] at h; cases h
  | some v =>
    cases h2 : decode ms n with
    | none => rw [h1, h2] at h; cases h
    | some fs' => rw [h1, h2] at h; cases h; exact ⟨v, fs', rfl, rfl, rfl⟩

theorem decode_keys {ms : List Member} {n : Xml} {fs : List (Str × Val)} (h : decode ms n = some fs) :
    fs.map (·.1) = ms.map Member.name := by
  induction ms generalizing fs with
  | nil => cases h; rfl
  | cons m ms ih =>
    obtain ⟨v, fs', _, h2, rfl⟩ := decode_cons h
    simp [ih h2]

theorem field_cons (k : Str) (p : Str × Val) (fs : List (Str × Val)) : field (p :: fs) k = if p.1 = k then p.2 else field fs k := by
  unfold field
  by_cases h : p.1 = k
  · rw [List.find?_cons_of_pos (by simpa using h), if_pos h]
  · rw [List.find?_cons_of_neg (by simpa using h), if_neg h]

theorem decode_field {ms : List Member} {n : Xml} {fs : List (Str × Val)} (h : decode ms n = some fs)
    (hn : (ms.map Member.name).Nodup) {m : Member} (hm : m ∈ ms) : decM m n = some (field fs m.name) := by
  induction ms generalizing fs with
  | nil => cases hm
  | cons k ms ih =>
    obtain ⟨v, fs', h1, h2, rfl⟩ := decode_cons h
    rw [List.map_cons, List.nodup_cons] at hn
    rw [field_cons]
    rcases List.mem_cons.1 hm with rfl | hm
    · rw [if_pos rfl]; exact h1
    · have hne : k.name ≠ m.name := fun e => hn.1 (e ▸ List.mem_map_of_mem hm)
      rw [if_neg hne]
      exact ih h2 hn.2 hm

theorem keys_set (fs : List (Str × Val)) (n : Str) (v : Val) : (setField fs n v).map (·.1) = fs.map (·.1) := by
  unfold setField
  rw [List.map_map]
  apply List.map_congr_left
  intro p _
  simp only [Function.comp]
  by_cases h : p.1 = n
  · rw [if_pos h, h]
  · rw [if_neg h]

theorem field_set (fs : List (Str × Val)) (n : Str) (v : Val) (k : Str) (h : n ∈ fs.map (·.1)) :
    field (setField fs n v) k = if k = n then v else field fs k := by
  induction fs with
  | nil => cases h
  | cons p fs ih =>
    have e : setField (p :: fs) n v = (if p.1 = n then (n, v) else p) :: setField fs n v := rfl
    rw [e, field_cons, field_cons]
    by_cases hp : p.1 = n
    · rw [if_pos hp]
      by_cases hk : k = n
      · rw [if_pos hk, if_pos hk.symm]
      · have hk' : ¬ n = k := fun e => hk e.symm
        rw [if_neg hk, if_neg hk', if_neg (fun e => hk (e.symm.trans hp))]
        by_cases hin : n ∈ fs.map (·.1)
        · rw [ih hin, if_neg hk]
        · have : setField fs n v = fs := by
            unfold setField
            conv => rhs; rw [← List.map_id fs]
            apply List.map_congr_left
            intro q hq
            have hq' : q.1 ≠ n := fun e => hin (by rw [← e]; exact List.mem_map_of_mem hq)
            rw [if_neg hq']; rfl
          rw [this]
    · rw [if_neg hp]
      have hin : n ∈ fs.map (·.1) := by
        rcases List.mem_cons.1 h with e | h
        · exact absurd e.symm hp
        · exact h
      rw [ih hin]
      by_cases hk : k = n
      · rw [if_pos hk, if_pos hk, if_neg (fun e => hp (e.trans hk))]
      · rw [if_neg hk, if_neg hk]

/-- Members of basic types. -/
def Flat : Member → Prop
  | .attr _ _ _ | .str _ _ _ | .basic _ _ _ => True
  | _ => False

theorem cons_type {b : Basic} {t : Str} {v : Val} (h : cons b t = some v) : isType b v = true := by
  cases b with
  | str =>
    simp only [cons] at h
    split at h
    · cases h; rfl
    · cases h
  | uni => cases h; rfl
  | int =>
    obtain ⟨n, _, rfl⟩ := Option.map_eq_some_iff.1 h; rfl
  | long =>
    obtain ⟨n, _, rfl⟩ := Option.map_eq_some_iff.1 h; rfl

theorem decBasic_type {b : Basic} {r : Bool} {o : Option Str} {v : Val} (h : decBasic b r o = some v) :
    (v = .none ∧ r = false) ∨ isType b v = true := by
  unfold decBasic at h
  split at h
  · exact .inr (cons_type h)
  · cases r with
    | true => cases h
    | false => cases h; exact .inl ⟨rfl, rfl⟩

/-- A value that a basic member may have. -/
def Good (b : Basic) (r : Bool) (v : Val) : Prop := (v = .none ∧ r = false) ∨ isType b v = true

theorem good_valid {b : Basic} {r : Bool} {v : Val} (h : Good b r v) (lang t : Str) :
    validM lang (.attr t b r) v = true ∧ validM lang (.str t b r) v = true ∧ validM lang (.basic t b r) v = true := by
  rcases h with ⟨rfl, rfl⟩ | h
  · exact ⟨rfl, rfl, rfl⟩
  · cases v <;> simp [validM, h]; cases b <;> cases h

theorem good_tag {t : Str} {b : Basic} {r : Bool} {n : Xml} {v : Val} (h : decM (.basic t b r) n = some v) : Good b r v := by
  unfold decM decTag at h
  split at h
  · obtain ⟨o, _, ho⟩ := Option.bind_eq_some_iff.1 h
    exact decBasic_type ho
  · exact decBasic_type h

theorem flat_valid {m : Member} (hm : Flat m) {n : Xml} {v : Val} (h : decM m n = some v) (lang : Str) : validM lang m v = true := by
  cases m with
  | attr t b r => exact (good_valid (decBasic_type (by unfold decM at h; exact h)) lang t).1
  | str t b r =>
    unfold decM at h
    obtain ⟨o, _, ho⟩ := Option.bind_eq_some_iff.1 h
    exact (good_valid (decBasic_type ho) lang t).2.1
  | basic t b r => exact (good_valid (good_tag h) lang t).2.2
  | _ => cases hm

theorem flat_class {ms : List Member} (hm : ∀ m ∈ ms, Flat m) (hn : (ms.map Member.name).Nodup) {n : Xml} {fs : List (Str × Val)}
    (h : decode ms n = some fs) (lang : Str) : valid lang ms fs = true := by
  rw [valid_iff]
  intro m hm'
  exact flat_valid (hm m hm') (decode_field h hn hm') lang

theorem mapM_some_mem {α β : Type} {f : α → Option β} {l : List α} {l' : List β} (h : l.mapM f = some l') :
    ∀ b ∈ l', ∃ a ∈ l, f a = some b := by
  induction l generalizing l' with
  | nil => cases h; intro b hb; cases hb
  | cons a l ih =>
    rw [List.mapM_cons] at h
    cases h1 : f a with
    | none => rw [h1] at h; cases h
    | some c =>
      cases h2 : l.mapM f with
      | none => rw [h1, h2] at h; cases h
      | some cs =>
        rw [h1, h2] at h
        cases h
        intro b hb
        rcases List.mem_cons.1 hb with rfl | hb
        · exact ⟨a, List.mem_cons_self, h1⟩
        · obtain ⟨a', ha', e⟩ := ih h2 b hb
          exact ⟨a', List.mem_cons_of_mem a ha', e⟩

theorem mapM_mem_some {α β : Type} {f : α → Option β} {l : List α} {l' : List β} (h : l.mapM f = some l') :
    ∀ a ∈ l, ∃ b ∈ l', f a = some b := by
  induction l generalizing l' with
  | nil => intro a ha; cases ha
  | cons a l ih =>
    rw [List.mapM_cons] at h
    cases h1 : f a with
    | none => rw [h1] at h; cases h
    | some c =>
      cases h2 : l.mapM f with
      | none => rw [h1, h2] at h; cases h
      | some cs =>
        rw [h1, h2] at h
        cases h
        intro b hb
        rcases List.mem_cons.1 hb with rfl | hb
        · exact ⟨c, List.mem_cons_self, h1⟩
        · obtain ⟨a', ha', e⟩ := ih h2 b hb
          exact ⟨a', List.mem_cons_of_mem c ha', e⟩

/-- What is known of a list of objects that was read. -/
theorem list_read {k : Str} {p : List Str} {t : Str} {ms : List Member} {r : Bool} {n : Xml} {v : Val}
    (h : decM (.clss k p t ms r) n = some v) : ∃ l, v = .list l ∧ (r = true → l ≠ []) ∧
      (∀ w ∈ l, ∃ y fs, Along (p ++ [t]) n y ∧ decode ms y = some fs ∧ w = .obj fs) ∧
      ∀ y, Along (p ++ [t]) n y → ∃ fs, decode ms y = some fs ∧ .obj fs ∈ l := by
  unfold decM decList at h
  split at h
  · cases h
  · rename_i hne
    obtain ⟨l, hl, rfl⟩ := Option.map_eq_some_iff.1 h
    have hd : ∀ y, Along (p ++ [t]) n y → ∀ w, (match getNode (dummy y) t with
        | some x => (decode ms x).map Val.obj
        | none => none) = some w → ∃ fs, decode ms y = some fs ∧ w = Val.obj fs := by
      intro y hy w hw
      rw [getNode_dummy (along_tag p t n y hy)] at hw
      obtain ⟨fs, hfs, rfl⟩ := Option.map_eq_some_iff.1 hw
      exact ⟨fs, hfs, rfl⟩
    refine ⟨l, rfl, ?_, ?_, ?_⟩
    · rintro hr rfl
      cases hg : getAll n (p ++ [t]) with
      | nil => rw [hg] at hne; exact hne ⟨rfl, hr⟩
      | cons y ys =>
        obtain ⟨b, hb, _⟩ := mapM_mem_some hl y (by rw [hg]; exact List.mem_cons_self)
        cases hb
    · intro w hw
      obtain ⟨y, hy, e⟩ := mapM_some_mem hl w hw
      have hy := (mem_getAll _ _ _).1 hy
      obtain ⟨fs, h1, h2⟩ := hd y hy w e
      exact ⟨y, fs, hy, h1, h2⟩
    · intro y hy
      obtain ⟨w, hw, e⟩ := mapM_mem_some hl y ((mem_getAll _ _ _).2 hy)
      obtain ⟨fs, h1, rfl⟩ := hd y hy w e
      exact ⟨fs, h1, hw⟩

theorem list_valid {k : Str} {p : List Str} {t : Str} {ms : List Member} {r : Bool} {n : Xml} {v : Val}
    (hf : ∀ m ∈ ms, Flat m) (hn : (ms.map Member.name).Nodup)
    (h : decM (.clss k p t ms r) n = some v) (lang : Str) : validM lang (.clss k p t ms r) v = true := by
  obtain ⟨l, rfl, _, hl, _⟩ := list_read h
  unfold validM
  rw [List.all_eq_true]
  intro w hw
  obtain ⟨y, fs, _, hd, rfl⟩ := hl w hw
  exact flat_class hf hn hd lang

theorem cls_valid {t : Str} {ms : List Member} {n : Xml} {v : Val}
    (hf : ∀ m ∈ ms, Flat m) (hn : (ms.map Member.name).Nodup)
    (h : decM (.cls t ms true) n = some v) (lang : Str) : validM lang (.cls t ms true) v = true := by
  unfold decM at h
  split at h
  · obtain ⟨fs, hfs, rfl⟩ := Option.map_eq_some_iff.1 h
    unfold validM
    exact flat_class hf hn hfs lang
  · cases h

/-- A list of words. -/
def Strs (v : Val) : Prop := ∃ l, v = .list l ∧ ∀ x ∈ l, isType .str x = true

theorem strs_read {k : Str} {p : List Str} {t : Str} {r : Bool} {n : Xml} {v : Val}
    (h : decM (.basics k p t .str r) n = some v) : Strs v := by
  unfold decM decList at h
  split at h
  · cases h
  · obtain ⟨l, hl, rfl⟩ := Option.map_eq_some_iff.1 h
    refine ⟨l, rfl, fun x hx => ?_⟩
    obtain ⟨y, _, e⟩ := mapM_some_mem hl x hx
    have : decM (.basic t .str true) (dummy y) = some x := by unfold decM; exact e
    rcases good_tag this with ⟨_, h⟩ | h
    · cases h
    · exact h

theorem strs_valid {v : Val} (h : Strs v) (lang k : Str) (p : List Str) (t : Str) (r : Bool) : validM lang (.basics k p t .str r) v = true := by
  obtain ⟨l, rfl, hl⟩ := h
  unfold validM
  rw [List.all_eq_true]
  intro x hx
  rw [hl x hx, Bool.or_true]

theorem inTongue_iff (y : Xml) (l : Str) : InTongue y l ↔ langOf y = l := by
  unfold InTongue langOf
  change (getAttr y langAttr = some l ∧ l ≠ [] ∨ (getAttr y langAttr = none ∨ getAttr y langAttr = some []) ∧ l = s "en") ↔ _
  cases h : getAttr y langAttr with
  | none =>
    constructor
    · rintro (⟨h, _⟩ | ⟨_, rfl⟩)
      · cases h
      · rfl
    · intro e; exact .inr ⟨.inl rfl, e.symm⟩
  | some v =>
    cases v with
    | nil =>
      constructor
      · rintro (⟨h, hne⟩ | ⟨_, rfl⟩)
        · cases h; exact absurd rfl hne
        · rfl
      · intro e; exact .inr ⟨.inr rfl, e.symm⟩
    | cons c v =>
      constructor
      · rintro (⟨h, _⟩ | ⟨h | h, _⟩)
        · cases h; rfl
        · cases h
        · cases h
      · intro e; cases e; exact .inl ⟨rfl, by simp⟩

theorem last_with {P : Xml → Prop} : ∀ {l : List Xml}, (∃ y ∈ l, P y) → ∃ as y bs, l = as ++ y :: bs ∧ P y ∧ ∀ b ∈ bs, ¬ P b := by
  intro l
  induction l with
  | nil => rintro ⟨y, hy, _⟩; cases hy
  | cons x l ih =>
    rintro ⟨y, hy, hP⟩
    by_cases h : ∃ z ∈ l, P z
    · obtain ⟨as, z, bs, rfl, h1, h2⟩ := ih h
      exact ⟨x :: as, z, bs, rfl, h1, h2⟩
    · have : y = x := by
        rcases List.mem_cons.1 hy with e | hy
        · exact e
        · exact absurd ⟨y, hy, hP⟩ h
      subst this
      exact ⟨[], y, l, rfl, hP, fun b hb hb' => h ⟨b, hb, hb'⟩⟩

theorem lang_read {l : List Xml} {d : List (Str × Str)} (h : decLangs l [] = some d) (k : Str) : InLang d k ↔ ∃ y ∈ l, langOf y = k := by
  obtain ⟨_, hm⟩ := text_read l d h
  constructor
  · rintro ⟨x, hx⟩
    obtain ⟨as, n, bs, rfl, e, _, _⟩ := (hm k x).1 hx
    exact ⟨n, by simp, e⟩
  · intro he
    obtain ⟨as, y, bs, rfl, h1, h2⟩ := last_with he
    have hs : (decLangs (as ++ y :: bs) []).isSome = true := by rw [h]; rfl
    obtain ⟨x, hx, _⟩ := (word_text y).1 ((decLangs_isSome _ _).1 hs y (by simp))
    exact ⟨x, (hm k x).2 ⟨as, y, bs, rfl, h1, hx, h2⟩⟩

/-- What is known of a local text that was read. -/
theorem loc_read {n : Xml} {t : String} {r : Bool} {v : Val} (h : decM (.loc (Classes.s t) r) n = some v) :
    ∃ d, v = .loc d ∧ (d = [] ↔ ∀ y, ¬ First n (s t) y) ∧ ∀ lang, locValid lang d = true ↔ Readable lang n t := by
  unfold decM decLoc at h
  split at h
  · cases h
  · obtain ⟨d, hd, rfl⟩ := Option.map_eq_some_iff.1 h
    have hl := lang_read hd
    have ha : ∀ y, y ∈ getAll n [Classes.s t] ↔ y ∈ n.kids ∧ y.isTag (s t) = true := by
      intro y; rw [mem_getAll, along_one]; exact Iff.rfl
    refine ⟨d, rfl, ?_, fun lang => ?_⟩
    · constructor
      · rintro rfl y hy
        obtain ⟨x, hx⟩ := (hl (langOf y)).2 ⟨y, (ha y).2 (first_kid hy), rfl⟩
        cases hx
      · intro hno
        cases d with
        | nil => rfl
        | cons p d =>
          obtain ⟨y, hy, _⟩ := (hl p.1).1 ⟨p.2, List.mem_cons_self⟩
          obtain ⟨z, hz⟩ := first_exists.2 ⟨y, (ha y).1 hy⟩
          exact absurd hz (hno z)
    · rw [locValid_iff]
      unfold Common Readable
      simp only [hl, inTongue_iff, along_one, ha]
      constructor
      · rintro (⟨y, h1, h2⟩ | ⟨y, h1, h2⟩ | ⟨y, h1, h2⟩)
        · exact ⟨y, h1, .inl h2⟩
        · exact ⟨y, h1, .inr (.inl h2)⟩
        · exact ⟨y, h1, .inr (.inr h2)⟩
      · rintro ⟨y, h1, h2 | h2 | h2⟩
        · exact .inl ⟨y, h1, h2⟩
        · exact .inr (.inl ⟨y, h1, h2⟩)
        · exact .inr (.inr ⟨y, h1, h2⟩)

theorem orElse_good {b : Basic} {v w : Val} (h : Good b false v) (h' : Good b false w) : Good b false (orElse v w) := by
  unfold orElse
  split
  · exact h
  · exact h'

theorem orElse_strs {v w : Val} (h : Strs v) (h' : Strs w) : Strs (orElse v w) := by
  unfold orElse
  split
  · exact h
  · exact h'

theorem source_names : (Classes.specSource.map Member.name).Nodup := by decide +kernel
theorem package_names : (Classes.specPackage.map Member.name).Nodup := by decide +kernel
theorem update_names : (Classes.update.map Member.name).Nodup := by decide +kernel
theorem spec_names : (Classes.specFile.map Member.name).Nodup := by decide +kernel

theorem update_flat : ∀ m ∈ Classes.update, Flat m := by
  simp [Classes.update, Flat]

/-- The source after the hook: validation fails only for texts in other languages. -/
theorem source_valid {y : Xml} {src : List (Str × Val)} (h : decode Classes.specSource y = some src) {u : Val}
    (hu : ∀ n ∈ [Classes.s "version", Classes.s "release"], Good .str false (u.dot n)) (lang : Str) :
    valid lang Classes.specSource (mergeSource src u) = true ↔ Readable lang y "Summary" ∧ Readable lang y "Description" := by
  have hk : (src.map (·.1)) = Classes.specSource.map Member.name := decode_keys h
  have hver : Classes.s "version" ∈ src.map (·.1) := by rw [hk]; decide +kernel
  have hrel : Classes.s "release" ∈ src.map (·.1) := by rw [hk]; decide +kernel
  have hf : ∀ k, field (mergeSource src u) k = if k = Classes.s "release" then
      orElse (field src (Classes.s "release")) (u.dot (Classes.s "release")) else if k = Classes.s "version" then
      orElse (field src (Classes.s "version")) (u.dot (Classes.s "version")) else field src k := by
    intro k
    unfold mergeSource
    rw [field_set _ _ _ _ (by rw [keys_set]; exact hrel), field_set _ _ _ _ hver]
  have hd : ∀ m ∈ Classes.specSource, decM m y = some (field src m.name) := fun m hm => decode_field h source_names hm
  have other : ∀ m : Member, m.name ≠ Classes.s "release" → m.name ≠ Classes.s "version" →
      field (mergeSource src u) m.name = field src m.name := by
    intro m h1 h2; rw [hf, if_neg h1, if_neg h2]
  rw [valid_iff]
  simp only [Classes.specSource, List.forall_mem_cons] at hd ⊢
  obtain ⟨d1, d2, d3, d4, d5, d6, d7, d8, d9, d10, d11, d12, d13, d14, d15, _⟩ := hd
  obtain ⟨ds, es, _, ls⟩ := loc_read d4
  obtain ⟨dd, ed, _, ld⟩ := loc_read d5
  have v4 : validM lang (.loc (Classes.s "Summary") true) (field (mergeSource src u) (Member.loc (Classes.s "Summary") true).name) = true ↔
      Readable lang y "Summary" := by
    rw [other _ (by decide) (by decide), es]; exact ls lang
  have v5 : validM lang (.loc (Classes.s "Description") true) (field (mergeSource src u) (Member.loc (Classes.s "Description") true).name) = true ↔
      Readable lang y "Description" := by
    rw [other _ (by decide) (by decide), ed]; exact ld lang
  rw [v4, v5]
  have flat : ∀ m : Member, Flat m → m.name ≠ Classes.s "release" → m.name ≠ Classes.s "version" → decM m y = some (field src m.name) →
      validM lang m (field (mergeSource src u) m.name) = true := by
    intro m hm h1 h2 h3; rw [other m h1 h2]; exact flat_valid hm h3 lang
  constructor
  · rintro ⟨_, _, _, h4, h5, _⟩; exact ⟨h4, h5⟩
  · rintro ⟨h4, h5⟩
    refine ⟨flat _ trivial (by decide) (by decide) d1, flat _ trivial (by decide) (by decide) d2, ?_, h4, h5, ?_,
      flat _ trivial (by decide) (by decide) d7, flat _ trivial (by decide) (by decide) d8, ?_, ?_, ?_, ?_, ?_, ?_,
      flat _ trivial (by decide) (by decide) d15, fun _ h => by cases h⟩
    · rw [other _ (by decide) (by decide)]
      exact cls_valid (by simp [Classes.packager, Flat]) (by decide +kernel) d3 lang
    · rw [other _ (by decide) (by decide)]
      exact strs_valid (strs_read d6) _ _ _ _ _
    · rw [other _ (by decide) (by decide)]
      exact strs_valid (strs_read d9) _ _ _ _ _
    · rw [other _ (by decide) (by decide)]
      exact cls_valid (by simp [Classes.archive, Flat]) (by decide +kernel) d10 lang
    · rw [other _ (by decide) (by decide)]
      exact list_valid (by simp [Classes.patch, Flat]) (by decide +kernel) d11 lang
    · rw [other _ (by decide) (by decide)]
      exact list_valid (by simp [Classes.dependency, Flat]) (by decide +kernel) d12 lang
    · have e : field (mergeSource src u) (Member.basic (Classes.s "Version") .str false).name =
          orElse (field src (Classes.s "version")) (u.dot (Classes.s "version")) := by
        rw [hf, if_neg (by decide), if_pos (by decide)]
      rw [e]
      exact (good_valid (orElse_good (good_tag d13) (hu _ (by simp))) _ _).2.2
    · have e : field (mergeSource src u) (Member.basic (Classes.s "Release") .str false).name =
          orElse (field src (Classes.s "release")) (u.dot (Classes.s "release")) := by
        rw [hf, if_pos (by decide)]
      rw [e]
      exact (good_valid (orElse_good (good_tag d14) (hu _ (by simp))) _ _).2.2

/-- What packages get from the source. -/
theorem source_fields {y : Xml} {src : List (Str × Val)} (h : decode Classes.specSource y = some src) (u : Val) :
    (∃ d, field (mergeSource src u) (Classes.s "summary") = .loc d ∧ ∀ lang, locValid lang d = true ↔ Readable lang y "Summary") ∧
    (∃ d, field (mergeSource src u) (Classes.s "description") = .loc d ∧ ∀ lang, locValid lang d = true ↔ Readable lang y "Description") ∧
    Strs (field (mergeSource src u) (Classes.s "isA")) ∧ Strs (field (mergeSource src u) (Classes.s "license")) ∧
    Good .str false (field (mergeSource src u) (Classes.s "partOf")) ∧ Good .str false (field (mergeSource src u) (Classes.s "icon")) := by
  have hk : (src.map (·.1)) = Classes.specSource.map Member.name := decode_keys h
  have hver : Classes.s "version" ∈ src.map (·.1) := by rw [hk]; decide +kernel
  have hrel : Classes.s "release" ∈ src.map (·.1) := by rw [hk]; decide +kernel
  have hf : ∀ k, k ≠ Classes.s "release" → k ≠ Classes.s "version" → field (mergeSource src u) k = field src k := by
    intro k h1 h2
    unfold mergeSource
    rw [field_set _ _ _ _ (by rw [keys_set]; exact hrel), field_set _ _ _ _ hver, if_neg h1, if_neg h2]
  have hd : ∀ m ∈ Classes.specSource, decM m y = some (field src m.name) := fun m hm => decode_field h source_names hm
  simp only [Classes.specSource, List.forall_mem_cons] at hd
  obtain ⟨d1, d2, d3, d4, d5, d6, d7, d8, d9, d10, d11, d12, d13, d14, d15, _⟩ := hd
  obtain ⟨ds, es, _, ls⟩ := loc_read d4
  obtain ⟨dd, ed, _, ld⟩ := loc_read d5
  rw [hf _ (by decide) (by decide), hf _ (by decide) (by decide), hf _ (by decide) (by decide), hf _ (by decide) (by decide),
    hf _ (by decide) (by decide), hf _ (by decide) (by decide)]
  exact ⟨⟨ds, es, ls⟩, ⟨dd, ed, ld⟩, strs_read d6, strs_read d9, good_tag d7, good_tag d8⟩

theorem inherit_field (src : List (Str × Val)) : ∀ (ns : List Str) (p : List (Str × Val)) (k : Str), ns.Nodup →
    (∀ n ∈ ns, n ∈ p.map (·.1)) → field (ns.foldl (fun p n => setField p n (orElse (field p n) (field src n))) p) k =
      if k ∈ ns then orElse (field p k) (field src k) else field p k
  | [], _, _, _, _ => by simp
  | n :: ns, p, k, hn, hm => by
    rw [List.nodup_cons] at hn
    rw [List.foldl_cons, inherit_field src ns _ k hn.2 (fun x hx => by rw [keys_set]; exact hm x (List.mem_cons_of_mem n hx)),
      field_set _ _ _ _ (hm n List.mem_cons_self)]
    by_cases hk : k = n
    · subst hk
      rw [if_neg hn.1, if_pos rfl, if_pos List.mem_cons_self]
    · rw [if_neg hk]
      by_cases hin : k ∈ ns
      · rw [if_pos hin, if_pos (List.mem_cons_of_mem n hin)]
      · rw [if_neg hin, if_neg (fun h => (List.mem_cons.1 h).elim hk hin)]

theorem hook_obj (src p : List (Str × Val)) (hist : Val) (hk : p.map (·.1) = Classes.specPackage.map Member.name) :
    ∃ p', hookPackage src hist (.obj p) = .obj p' ∧ ∀ k, field p' k =
      if k ∈ inherited then orElse (field p k) (field src k)
      else if k = Classes.s "history" then hist
      else if k = Classes.s "isA" then .list ((field p (Classes.s "isA")).items ++ (field src (Classes.s "isA")).items)
      else field p k := by
  refine ⟨_, rfl, fun k => ?_⟩
  have m1 : Classes.s "isA" ∈ p.map (·.1) := by rw [hk]; decide +kernel
  have m2 : Classes.s "history" ∈ p.map (·.1) := by rw [hk]; decide +kernel
  have m3 : ∀ n ∈ inherited, n ∈ p.map (·.1) := by rw [hk]; decide +kernel
  have n1 : Classes.s "isA" ∉ inherited := by decide +kernel
  have n2 : Classes.s "history" ∉ inherited := by decide +kernel
  rw [inherit_field src inherited _ k (by decide +kernel) (by simpa only [keys_set] using m3),
    field_set _ _ _ _ (by simpa only [keys_set] using m2), field_set _ _ _ _ m1]
  by_cases k1 : k ∈ inherited
  · have e1 : ¬ k = Classes.s "isA" := fun e => n1 (e ▸ k1)
    have e2 : ¬ k = Classes.s "history" := fun e => n2 (e ▸ k1)
    rw [if_pos k1, if_pos k1, if_neg e2, if_neg e1]
  · rw [if_neg k1, if_neg k1]

/-- A package after the hook: validation fails only for texts in other languages. -/
theorem package_valid {y : Xml} {p src : List (Str × Val)} {hist : Val} {lang : Str} (h : decode Classes.specPackage y = some p)
    (hs : ∃ d, field src (Classes.s "summary") = .loc d ∧ locValid lang d = true)
    (hd : ∃ d, field src (Classes.s "description") = .loc d ∧ locValid lang d = true)
    (hi : Strs (field src (Classes.s "isA"))) (hl : Strs (field src (Classes.s "license")))
    (hp : Good .str false (field src (Classes.s "partOf"))) (hc : Good .str false (field src (Classes.s "icon")))
    (hh : validM lang (.clss (Classes.s "History") [Classes.s "History"] (Classes.s "Update") Classes.update false) hist = true) :
    ∃ p', hookPackage src hist (.obj p) = .obj p' ∧ field p' (Classes.s "history") = hist ∧ (valid lang Classes.specPackage p' = true ↔
      ((∀ z, ¬ First y (s "Summary") z) ∨ Readable lang y "Summary") ∧
      ((∀ z, ¬ First y (s "Description") z) ∨ Readable lang y "Description")) := by
  obtain ⟨p', e, hf⟩ := hook_obj src p hist (decode_keys h)
  refine ⟨p', e, by rw [hf, if_neg (by decide), if_pos rfl], ?_⟩
  have hm : ∀ m ∈ Classes.specPackage, decM m y = some (field p m.name) := fun m hm => decode_field h package_names hm
  rw [valid_iff]
  simp only [Classes.specPackage, List.forall_mem_cons] at hm ⊢
  obtain ⟨d1, d2, d3, d4, d5, d6, d7, d8, d9, d10, d11, d12, d13, d14, _⟩ := hm
  have same : ∀ k, k ∉ inherited → k ≠ Classes.s "history" → k ≠ Classes.s "isA" → field p' k = field p k := by
    intro k h1 h2 h3; rw [hf, if_neg h1, if_neg h2, if_neg h3]
  have inh : ∀ k, k ∈ inherited → field p' k = orElse (field p k) (field src k) := by
    intro k h1; rw [hf, if_pos h1]
  have text : ∀ (t : String) (r : Bool), (Member.loc (Classes.s t) r).name ∈ inherited →
      (∃ d, field src (Member.loc (Classes.s t) r).name = .loc d ∧ locValid lang d = true) →
      decM (.loc (Classes.s t) r) y = some (field p (Member.loc (Classes.s t) r).name) →
      (validM lang (.loc (Classes.s t) r) (field p' (Member.loc (Classes.s t) r).name) = true ↔
        (∀ z, ¬ First y (s t) z) ∨ Readable lang y t) := by
    rintro t r hin ⟨d, ed, vd⟩ hdec
    rw [inh _ hin, ed]
    obtain ⟨d', e', hnil, hval⟩ := loc_read hdec
    rw [e']
    unfold orElse
    by_cases hd' : d' = []
    · rw [if_neg (by simp [Val.truthy, hd'])]
      constructor
      · intro _; exact .inl (hnil.1 hd')
      · intro _; exact vd
    · rw [if_pos (by simpa [Val.truthy] using hd')]
      change locValid lang d' = true ↔ _
      rw [hval]
      constructor
      · intro h; exact .inr h
      · rintro (h | h)
        · exact absurd (hnil.2 h) hd'
        · exact h
  rw [text "Summary" false (by decide) hs d2, text "Description" false (by decide) hd d3]
  constructor
  · rintro ⟨_, h1, h2, _⟩; exact ⟨h1, h2⟩
  · rintro ⟨h1, h2⟩
    refine ⟨?_, h1, h2, ?_, ?_, ?_, ?_, ?_, ?_, ?_, ?_, ?_, ?_, ?_, fun _ h => by cases h⟩
    · rw [same _ (by decide) (by decide) (by decide)]; exact flat_valid (m := .basic _ _ _) trivial d1 lang
    · have e : field p' (Member.basics (Classes.s "IsA") [] (Classes.s "IsA") .str false).name =
          .list ((field p (Classes.s "isA")).items ++ (field src (Classes.s "isA")).items) := by
        rw [hf, if_neg (by decide), if_neg (by decide), if_pos (by decide)]
      rw [e]
      refine strs_valid ⟨_, rfl, fun x hx => ?_⟩ _ _ _ _ _
      obtain ⟨l, el, hl⟩ := hi
      have := strs_read d4
      obtain ⟨l', el', hl'⟩ := this
      have el'' : field p (Classes.s "isA") = .list l' := el'
      rw [el'', el] at hx
      rcases List.mem_append.1 hx with hx | hx
      · exact hl' x hx
      · exact hl x hx
    · rw [inh _ (by decide)]; exact (good_valid (orElse_good (good_tag d5) hp) _ _).2.2
    · rw [inh _ (by decide)]; exact strs_valid (orElse_strs (strs_read d6) hl) _ _ _ _ _
    · rw [inh _ (by decide)]; exact (good_valid (orElse_good (good_tag d7) hc) _ _).2.2
    · rw [same _ (by decide) (by decide) (by decide)]
      exact list_valid (by simp [Classes.dependency, Flat]) (by decide +kernel) d8 lang
    · rw [same _ (by decide) (by decide) (by decide)]; exact strs_valid (strs_read d9) _ _ _ _ _
    · rw [same _ (by decide) (by decide) (by decide)]
      exact list_valid (by simp [Classes.path, Flat]) (by decide +kernel) d10 lang
    · rw [same _ (by decide) (by decide) (by decide)]; exact strs_valid (strs_read d11) _ _ _ _ _
    · rw [same _ (by decide) (by decide) (by decide)]
      exact list_valid (by simp [Classes.comarProvide, Flat]) (by decide +kernel) d12 lang
    · rw [same _ (by decide) (by decide) (by decide)]
      exact list_valid (by simp [Classes.additionalFile, Flat]) (by decide +kernel) d13 lang
    · have e : field p' (Member.clss (Classes.s "History") [Classes.s "History"] (Classes.s "Update") Classes.update false).name = hist := by
        rw [hf, if_neg (by decide), if_pos (by decide)]
      rw [e]; exact hh

/-! ## C182 -/

/-- C182 in full: a valid specification is read. -/
def ReadFull : Prop := ∀ (lang : Str) (x : Xml), Document x → ∃ fs, readSpec lang x = some fs

/-- The record of a valid document that can be decoded. -/
theorem read_core {x : Xml} (hx : Document x) {fs : List (Str × Val)} (h : decode Classes.specFile x = some fs) :
    ∃ (y : Xml) (src : List (Str × Val)) (us : List Val) (u : Val) (ps : List Val),
      First x (s "Source") y ∧ decode Classes.specSource y = some src ∧
      (∀ w ∈ u :: us, ∃ z ufs, Along [s "History", s "Update"] x z ∧ decode Classes.update z = some ufs ∧ w = .obj ufs) ∧
      (∀ w ∈ ps, ∃ z pfs, Along [s "Package"] x z ∧ decode Classes.specPackage z = some pfs ∧ w = .obj pfs) ∧
      (∀ z, Along [s "Package"] x z → ∃ pfs, decode Classes.specPackage z = some pfs ∧ .obj pfs ∈ ps) ∧
      ∃ fs', readHook fs = some fs' ∧ field fs' (Classes.s "history") = .list (u :: us) ∧
        field fs' (Classes.s "source") = .obj (mergeSource src u) ∧
        field fs' (Classes.s "packages") = .list (ps.map (hookPackage (mergeSource src u) (.list (u :: us)))) ∧
        ∀ lang, valid lang Classes.specFile fs' = true ↔ valid lang Classes.specSource (mergeSource src u) = true ∧
          ∀ w ∈ ps.map (hookPackage (mergeSource src u) (.list (u :: us))), ∃ pfs, w = .obj pfs ∧ valid lang Classes.specPackage pfs = true := by
  have hm : ∀ m ∈ Classes.specFile, decM m x = some (field fs m.name) := fun m hm => decode_field h spec_names hm
  have hk := decode_keys h
  have k1 : Classes.s "source" ∈ fs.map (·.1) := by rw [hk]; decide +kernel
  have k2 : Classes.s "packages" ∈ fs.map (·.1) := by rw [hk]; decide +kernel
  simp only [Classes.specFile, List.forall_mem_cons] at hm
  obtain ⟨d1, d2, d3, d4, _⟩ := hm
  obtain ⟨ps, e2, _, hps, hps'⟩ := list_read d2
  obtain ⟨us, e3, hne, hus, _⟩ := list_read d3
  have d1' := d1
  unfold decM at d1
  split at d1
  · rename_i y hy
    obtain ⟨src, hsrc, e1⟩ := Option.map_eq_some_iff.1 d1
    cases us with
    | nil => exact absurd rfl (hne rfl)
    | cons u us =>
      have e1' : field fs (Classes.s "source") = .obj src := e1.symm
      have e2' : field fs (Classes.s "packages") = .list ps := e2
      have e3' : field fs (Classes.s "history") = .list (u :: us) := e3
      refine ⟨y, src, us, u, ps, (getNode_first _ _ _).1 hy, hsrc, hus, hps, hps',
        setField (setField fs (Classes.s "source") (.obj (mergeSource src u))) (Classes.s "packages")
          (.list (ps.map (hookPackage (mergeSource src u) (.list (u :: us))))), ?_, ?_, ?_, ?_, ?_⟩
      · unfold readHook; rw [e1', e2', e3']; rfl
      · rw [field_set _ _ _ _ (by rw [keys_set]; exact k2), if_neg (by decide), field_set _ _ _ _ k1, if_neg (by decide), e3']
      · rw [field_set _ _ _ _ (by rw [keys_set]; exact k2), if_neg (by decide), field_set _ _ _ _ k1, if_pos rfl]
      · rw [field_set _ _ _ _ (by rw [keys_set]; exact k2), if_pos rfl]
      · intro lang
        rw [valid_iff]
        simp only [Classes.specFile, List.forall_mem_cons]
        have f1 : field (setField (setField fs (Classes.s "source") (.obj (mergeSource src u))) (Classes.s "packages")
            (.list (ps.map (hookPackage (mergeSource src u) (.list (u :: us)))))) (Member.cls (Classes.s "Source") Classes.specSource true).name =
            .obj (mergeSource src u) := by
          rw [field_set _ _ _ _ (by rw [keys_set]; exact k2), if_neg (by decide), field_set _ _ _ _ k1, if_pos (by decide)]
        have f2 : field (setField (setField fs (Classes.s "source") (.obj (mergeSource src u))) (Classes.s "packages")
            (.list (ps.map (hookPackage (mergeSource src u) (.list (u :: us))))))
            (Member.clss (Classes.s "Packages") [] (Classes.s "Package") Classes.specPackage true).name =
            .list (ps.map (hookPackage (mergeSource src u) (.list (u :: us)))) := by
          rw [field_set _ _ _ _ (by rw [keys_set]; exact k2), if_pos (by decide)]
        have f3 : ∀ k, k ≠ Classes.s "packages" → k ≠ Classes.s "source" → field (setField (setField fs (Classes.s "source") (.obj (mergeSource src u))) (Classes.s "packages")
            (.list (ps.map (hookPackage (mergeSource src u) (.list (u :: us)))))) k = field fs k := by
          intro k h1 h2
          rw [field_set _ _ _ _ (by rw [keys_set]; exact k2), if_neg h1, field_set _ _ _ _ k1, if_neg h2]
        rw [f1, f2, f3 _ (by decide) (by decide), f3 _ (by decide) (by decide)]
        have v3 := list_valid update_flat update_names d3 lang
        have v4 : validM lang (.clss (Classes.s "Components") [] (Classes.s "Component") Classes.component false)
            (field fs (Member.clss (Classes.s "Components") [] (Classes.s "Component") Classes.component false).name) = true := by
          obtain ⟨l, el, _, hl, _⟩ := list_read d4
          rw [el]
          cases l with
          | nil => rfl
          | cons w l =>
            obtain ⟨z, _, hz, _, _⟩ := hl w List.mem_cons_self
            exact absurd hz (decode_none_along (kid_not hx.2 hx.1 dPisi (by decide)) z)
        constructor
        · rintro ⟨v1, v2, _⟩
          refine ⟨v1, fun w hw => ?_⟩
          have := (List.all_eq_true.1 v2) w hw
          split at this
          · rename_i pfs; exact ⟨pfs, rfl, this⟩
          · cases this
        · rintro ⟨v1, v2⟩
          refine ⟨v1, ?_, v3, v4, fun _ h => by cases h⟩
          refine List.all_eq_true.2 fun w hw => ?_
          obtain ⟨pfs, rfl, hv⟩ := v2 w hw
          exact hv
  · cases d1

theorem update_good {z : Xml} {ufs : List (Str × Val)} (h : decode Classes.update z = some ufs) :
    ∀ n ∈ [Classes.s "version", Classes.s "release"], Good .str false (Val.dot (.obj ufs) n) := by
  have hm : ∀ m ∈ Classes.update, decM m z = some (field ufs m.name) := fun m hm => decode_field h update_names hm
  simp only [Classes.update, List.forall_mem_cons] at hm
  obtain ⟨d1, d2, d3, _⟩ := hm
  intro n hn
  simp only [List.mem_cons, List.not_mem_nil, or_false] at hn
  rcases hn with rfl | rfl
  · rcases good_tag d3 with ⟨_, h⟩ | h
    · cases h
    · exact .inr h
  · unfold decM at d1
    rcases decBasic_type d1 with ⟨_, h⟩ | h
    · cases h
    · exact .inr h

/-- C182: a valid document is read if and only if it has the texts and attributes that the reader wants beyond the DTD. -/
theorem read_iff {x : Xml} (hx : Document x) (lang : Str) : (∃ fs, readSpec lang x = some fs) ↔ Needs lang x := by
  have hdr := document_reads hx
  unfold readSpec
  cases h : decode Classes.specFile x with
  | none =>
    rw [h] at hdr
    constructor
    · rintro ⟨fs, e⟩; cases e
    · rintro ⟨⟨y, hy, hs⟩, hp, hu⟩
      have first : ∀ {t : String}, Readable lang y t → ∃ z, First y (s t) z := by
        rintro t ⟨z, hz, _⟩
        exact first_exists.2 ⟨z, (along_one _ _ _).1 hz⟩
      refine absurd (hdr.2 ⟨⟨y, hy, ⟨hs.name, hs.homepage, hs.packager, ⟨first hs.summary.1, hs.summary.2⟩,
        ⟨first hs.description.1, hs.description.2⟩, hs.isA, hs.partOf, hs.icon, hs.license, hs.archive, hs.patches, hs.dependencies⟩⟩,
        fun z hz => ?_, hu⟩) (by simp)
      have hz := hp z hz
      have no : ∀ {t : String}, (∀ w, ¬ First z (s t) w) → AllWords z [t] := by
        intro t ht w hw
        obtain ⟨v, hv⟩ := first_exists.2 ⟨w, (along_one _ _ _).1 hw⟩
        exact absurd hv (ht v)
      exact ⟨hz.name, hz.summary.elim no And.right, hz.description.elim no And.right, hz.isA, hz.partOf, hz.license,
        hz.dependencies, hz.files, hz.conflicts, hz.comar, hz.additional⟩
  | some fs =>
    rw [h] at hdr
    obtain ⟨⟨y', hy', hs⟩, hp, hu⟩ := hdr.1 rfl
    obtain ⟨y, src, us, u, ps, hy, hsrc, hus, hps, hps', fs', eh, _, _, _, hv⟩ := read_core hx h
    obtain rfl : y' = y := by
      have h1 := (getNode_first _ _ _).2 hy
      rw [(getNode_first _ _ _).2 hy'] at h1
      cases h1; rfl
    simp only [eh]
    have hok : (∃ fs, (if valid lang Classes.specFile fs' = true then some fs' else none) = some fs) ↔
        valid lang Classes.specFile fs' = true := by
      by_cases hb : valid lang Classes.specFile fs' = true
      · rw [if_pos hb]; exact ⟨fun _ => hb, fun _ => ⟨_, rfl⟩⟩
      · rw [if_neg hb]; exact ⟨fun ⟨_, e⟩ => (by cases e), fun e => absurd e hb⟩
    rw [hok, hv]
    obtain ⟨zu, ufs, _, hdu, rfl⟩ := hus _ List.mem_cons_self
    have hgu := update_good hdu
    rw [source_valid hsrc hgu]
    obtain ⟨⟨ds, es, ls⟩, ⟨dd, ed, ld⟩, fi, fl, fp, fc⟩ := source_fields hsrc (.obj ufs)
    have hh : validM lang (.clss (Classes.s "History") [Classes.s "History"] (Classes.s "Update") Classes.update false)
        (.list (.obj ufs :: us)) = true := by
      unfold validM
      rw [List.all_eq_true]
      intro w hw
      obtain ⟨z, wfs, _, hw', rfl⟩ := hus w hw
      exact flat_class update_flat update_names hw' lang
    constructor
    · rintro ⟨⟨r1, r2⟩, hall⟩
      refine ⟨⟨y', hy', ⟨hs.name, hs.homepage, hs.packager, ⟨r1, hs.summary.2⟩, ⟨r2, hs.description.2⟩, hs.isA, hs.partOf, hs.icon,
        hs.license, hs.archive, hs.patches, hs.dependencies⟩⟩, fun z hz => ?_, hu⟩
      obtain ⟨pfs, hd, hin⟩ := hps' z hz
      obtain ⟨p', ep, _, hvp⟩ := package_valid (lang := lang) hd ⟨ds, es, (ls lang).2 r1⟩ ⟨dd, ed, (ld lang).2 r2⟩ fi fl fp fc hh
      obtain ⟨q, eq, hq⟩ := hall _ (List.mem_map_of_mem hin)
      rw [ep] at eq
      cases eq
      obtain ⟨s1, s2⟩ := hvp.1 hq
      have hz := hp z hz
      exact ⟨hz.name, s1.imp id (fun r => ⟨r, hz.summary⟩), s2.imp id (fun r => ⟨r, hz.description⟩), hz.isA, hz.partOf, hz.license,
        hz.dependencies, hz.files, hz.conflicts, hz.comar, hz.additional⟩
    · rintro ⟨⟨y2, hy2, hs2⟩, hp2, _⟩
      obtain rfl : y2 = y' := by
        have h1 := (getNode_first _ _ _).2 hy2
        rw [(getNode_first _ _ _).2 hy'] at h1
        cases h1; rfl
      have r1 := hs2.summary.1
      have r2 := hs2.description.1
      refine ⟨⟨r1, r2⟩, fun w hw => ?_⟩
      obtain ⟨w0, hw0, rfl⟩ := List.mem_map.1 hw
      obtain ⟨z, pfs, hz, hd, rfl⟩ := hps w0 hw0
      obtain ⟨p', ep, _, hvp⟩ := package_valid (lang := lang) hd ⟨ds, es, (ls lang).2 r1⟩ ⟨dd, ed, (ld lang).2 r2⟩ fi fl fp fc hh
      have hz2 := hp2 z hz
      exact ⟨p', ep, hvp.2 ⟨hz2.summary.imp id And.left, hz2.description.imp id And.left⟩⟩

/-! ## Examples -/

theorem valid_leaf {t : Str} (h : t ∈ TextTags) (u : Str) : Valid (.elem t [] [.text u]) := by
  refine .elem t [] _ _ (text_decl h) ⟨by simp, by simp, by simp⟩ ?_ ?_
  · intro k hk; obtain rfl := List.mem_singleton.1 hk; exact ⟨u, rfl⟩
  · intro k hk; obtain rfl := List.mem_singleton.1 hk; exact .text u

def leafOf (t u : String) : Xml := .elem (s t) [] [.text (s u)]

/-- A document with the given children of the source, of the package and of the update. -/
def doc (src pkg upd : List Xml) : Xml := .elem (s "PISI") [] [.elem (s "Source") [] src, .elem (s "Package") [] pkg,
  .elem (s "History") [] [.elem (s "Update") [(s "release", s "3"), (s "type", s "security")] upd]]

theorem doc_valid {src pkg upd : List Xml}
    (hs : ∀ k ∈ src, Valid k) (hs' : ∀ u ∈ tags src, u ∈ [s "Name", s "Homepage", s "Icon", s "Packager", s "License", s "IsA", s "PartOf",
      s "Summary", s "Description", s "Archive", s "Patches", s "BuildDependencies"])
    (hp : ∀ k ∈ pkg, Valid k) (hp' : ∀ u ∈ tags pkg, u ∈ [s "Name", s "License", s "IsA", s "PartOf", s "Summary", s "Description",
      s "RuntimeDependencies", s "Files", s "Conflicts", s "AdditionalFiles", s "Provides"])
    (hu : ∀ k ∈ upd, Valid k) (hu' : ∀ u ∈ tags upd, u ∈ [s "Date", s "Version", s "Comment", s "Name", s "Email"]) :
    Document (doc src pkg upd) := by
  refine ⟨rfl, .elem _ _ _ _ dPisi ⟨by simp, by simp, by simp⟩ ⟨.one _ _ _ (.plus _ _ _ (.none _ _ _ (.one _ _ _ .nil))), ?_⟩ ?_⟩
  · intro k hk ht
    simp only [List.mem_cons, List.not_mem_nil, or_false] at hk
    obtain ⟨t, rfl⟩ := ht
    rcases hk with h | h | h <;> cases h
  · simp only [List.forall_mem_cons]
    refine ⟨.elem _ _ _ _ (List.mem_of_getElem? (i := 1) rfl) ⟨by simp, by simp, by simp⟩ hs' hs,
      .elem _ _ _ _ (List.mem_of_getElem? (i := 17) rfl) ⟨by simp, by simp, by simp⟩ hp' hp,
      .elem _ _ _ _ (List.mem_of_getElem? (i := 26) rfl) ⟨by simp, by simp, by simp⟩ ⟨.plus _ _ _ (.none _ _ _ .nil), ?_⟩ ?_,
      fun _ h => by cases h⟩
    · intro k hk ht
      obtain rfl := List.mem_singleton.1 hk
      obtain ⟨t, ht⟩ := ht
      cases ht
    · intro k hk
      obtain rfl := List.mem_singleton.1 hk
      refine .elem _ _ _ _ (List.mem_of_getElem? (i := 27) rfl) ⟨?_, by decide, ?_⟩ hu' hu
      · simp [ValueOk]
      · simp

/-- A specification that is valid and is read. -/
def sample : Xml := doc [leafOf "Name" "a", .elem (s "Packager") [] [leafOf "Name" "p", leafOf "Email" "e"], leafOf "License" "l",
    .elem (s "Summary") [] [.text (s "x")], .elem (s "Description") [] [.text (s "y")],
    .elem (s "Archive") [(s "type", s "t"), (s "sha1sum", s "h")] [.text (s "u")]]
  [leafOf "Name" "b"] [leafOf "Date" "d", leafOf "Version" "1"]

theorem sample_document : Document sample := by
  refine doc_valid ?_ (by decide) ?_ (by decide) ?_ (by decide)
  · simp only [List.forall_mem_cons]
    refine ⟨valid_leaf (by decide) _, ?_, valid_leaf (by decide) _, ?_, ?_, ?_, fun _ h => by cases h⟩
    · refine .elem _ _ _ _ (List.mem_of_getElem? (i := 5) rfl) ⟨by simp, by simp, by simp⟩ ⟨.one _ _ _ (.one _ _ _ .nil), ?_⟩ ?_
      · intro k hk ht
        simp only [List.mem_cons, List.not_mem_nil, or_false] at hk
        obtain ⟨t, rfl⟩ := ht
        rcases hk with h | h <;> cases h
      · simp only [List.forall_mem_cons]
        exact ⟨valid_leaf (by decide) _, valid_leaf (by decide) _, fun _ h => by cases h⟩
    · refine .elem _ _ _ _ (List.mem_of_getElem? (i := 10) rfl) ⟨by simp, by simp, by simp⟩ ?_ ?_
      · intro k hk; obtain rfl := List.mem_singleton.1 hk; exact ⟨_, rfl⟩
      · intro k hk; obtain rfl := List.mem_singleton.1 hk; exact .text _
    · refine .elem _ _ _ _ (List.mem_of_getElem? (i := 11) rfl) ⟨by simp, by simp, by simp⟩ ?_ ?_
      · intro k hk; obtain rfl := List.mem_singleton.1 hk; exact ⟨_, rfl⟩
      · intro k hk; obtain rfl := List.mem_singleton.1 hk; exact .text _
    · refine .elem _ _ _ _ (List.mem_of_getElem? (i := 12) rfl) ⟨by simp [ValueOk], by decide, by simp⟩ ?_ ?_
      · intro k hk; obtain rfl := List.mem_singleton.1 hk; exact ⟨_, rfl⟩
      · intro k hk; obtain rfl := List.mem_singleton.1 hk; exact .text _
  · intro k hk; obtain rfl := List.mem_singleton.1 hk; exact valid_leaf (by decide) _
  · simp only [List.forall_mem_cons]
    exact ⟨valid_leaf (by decide) _, valid_leaf (by decide) _, fun _ h => by cases h⟩

theorem sample_reads : (readSpec (s "de") sample).isSome = true := by decide +kernel

example : Document sample ∧ Needs (s "de") sample :=
  ⟨sample_document, (read_iff sample_document _).1 (Option.isSome_iff_exists.1 sample_reads)⟩

/-- C182 does not hold in full: the DTD does not ask for the name of the source. -/
theorem read_refuted : ¬ ReadFull := by
  intro h
  obtain ⟨fs, e⟩ := h (s "en") (doc [] [] []) (doc_valid (by simp) (by simp [tags]) (by simp) (by simp [tags]) (by simp) (by simp [tags]))
  have : (readSpec (s "en") (doc [] [] [])).isSome = true := by rw [e]; rfl
  exact absurd this (by decide +kernel)

/-- C182 as far as it holds. -/
theorem read_partial (lang : Str) (x : Xml) (hx : Document x) (hn : Needs lang x) : ∃ fs, readSpec lang x = some fs :=
  (read_iff hx lang).2 hn

/-! ## C183 -/

/-- C183 in full: the type of an update is in the record. -/
def TypesFull : Prop := ∀ (lang : Str) (x : Xml) (fs : List (Str × Val)), Document x → readSpec lang x = some fs →
  ∀ z v, Along [s "History", s "Update"] x z → getAttr z (s "type") = some v → v ≠ [] →
    ∃ u ∈ (field fs (s "history")).items, u.dot (s "type") = .str v

/-- C183: no update in a record read from a valid document has a type, neither at the top nor in the packages. -/
theorem types_none {lang : Str} {x : Xml} {fs : List (Str × Val)} (hx : Document x) (h : readSpec lang x = some fs) :
    (field fs (s "history")).items ≠ [] ∧ (∀ u ∈ (field fs (s "history")).items, u.dot (s "type") = .none) ∧
    ∀ p ∈ (field fs (s "packages")).items, p.dot (s "history") = field fs (s "history") := by
  unfold readSpec at h
  cases hd : decode Classes.specFile x with
  | none => rw [hd] at h; cases h
  | some fs0 =>
    rw [hd] at h
    obtain ⟨y, src, us, u, ps, hy, hsrc, hus, hps, hps', fs', eh, e1, _, e3, hv⟩ := read_core hx hd
    simp only [eh] at h
    split at h
    · cases h
      rename_i hval
      have e1' : field fs (s "history") = .list (u :: us) := e1
      have e3' : field fs (s "packages") = _ := e3
      rw [e1', e3']
      refine ⟨by simp [Val.items], ?_, ?_⟩
      · intro w hw
        obtain ⟨z, ufs, hz, hdz, rfl⟩ := hus w hw
        have hm : ∀ m ∈ Classes.update, decM m z = some (field ufs m.name) := fun m hm => decode_field hdz update_names hm
        simp only [Classes.update, List.forall_mem_cons] at hm
        obtain ⟨_, _, _, d4, _⟩ := hm
        obtain ⟨f, hf, hft, hz1, hz2⟩ := (along_two _ _ _ _).1 hz
        obtain ⟨_, _, hk⟩ := valid_inv hx.2 hx.1 dPisi
        obtain ⟨_, _, hkf⟩ := valid_inv (hk f hf) hft (List.mem_of_getElem? (i := 26) rfl)
        have hno := kid_not (hkf z hz1) hz2 (List.mem_of_getElem? (i := 27) rfl) (u := s "Type") (by decide)
        have hg : getNode z (Classes.s "Type") = none := by
          rw [getNode_none]
          intro w hw
          have h1 := first_kid hw
          have h2 : w.isTag (s "Type") = true := h1.2
          rw [hno w h1.1] at h2
          cases h2
        unfold decM decTag at d4
        rw [hg] at d4
        have d4' : (some Val.none : Option Val) = some (field ufs (s "type")) := d4
        exact (Option.some.inj d4').symm
      · intro w hw
        obtain ⟨w0, hw0, rfl⟩ := List.mem_map.1 (show w ∈ ps.map _ from hw)
        obtain ⟨z, pfs, hz, hdz, rfl⟩ := hps w0 hw0
        obtain ⟨p', ep, hf⟩ := hook_obj (mergeSource src u) pfs (.list (u :: us)) (decode_keys hdz)
        rw [ep]
        change field p' (s "history") = _
        rw [hf, if_neg (by decide), if_pos (by decide)]
    · cases h

/-- C183 does not hold in full: the security update of the example has no type. -/
theorem types_refuted : ¬ TypesFull := by
  intro h
  obtain ⟨fs, e⟩ := Option.isSome_iff_exists.1 sample_reads
  have hz : Along [s "History", s "Update"] sample (.elem (s "Update") [(s "release", s "3"), (s "type", s "security")]
      [leafOf "Date" "d", leafOf "Version" "1"]) :=
    (along_two _ _ _ _).2 ⟨_, List.mem_of_getElem? (i := 2) rfl, rfl, List.mem_of_getElem? (i := 0) rfl, rfl⟩
  obtain ⟨u, hu, hv⟩ := h (s "de") sample fs sample_document e _ (s "security") hz (by decide) (by decide)
  rw [(types_none sample_document e).2.1 u hu] at hv
  cases hv

theorem getAttr_filter (t : Str) (as : List (Str × Str)) (ks : List Xml) {a b : Str} (h : b ≠ a) :
    getAttr (.elem t (as.filter (fun p => p.1 ≠ a)) ks) b = getAttr (.elem t as ks) b := by
  have : ∀ as : List (Str × Str), (as.filter (fun p => p.1 ≠ a)).find? (fun p => p.1 = b) = as.find? (fun p => p.1 = b) := by
    intro as
    induction as with
    | nil => rfl
    | cons p as ih =>
      by_cases hp : p.1 = a
      · have hb : ¬ p.1 = b := fun e => h (e.symm.trans hp)
        rw [List.filter_cons_of_neg (by simpa using hp), ih, List.find?_cons_of_neg (by simpa using hb)]
      · rw [List.filter_cons_of_pos (by simpa using hp)]
        by_cases hb : p.1 = b
        · rw [List.find?_cons_of_pos (by simpa using hb), List.find?_cons_of_pos (by simpa using hb)]
        · rw [List.find?_cons_of_neg (by simpa using hb), List.find?_cons_of_neg (by simpa using hb), ih]
  exact congrArg (Option.map (·.2)) (this as)

/-- C183: an attribute that is not a member makes no difference to the record. -/
theorem unread {ms : List Member} {a : Str} (h : ¬ Reads ms a) (t : Str) (as : List (Str × Str)) (ks : List Xml) :
    decode ms (.elem t (as.filter (fun p => p.1 ≠ a)) ks) = decode ms (.elem t as ks) := by
  induction ms with
  | nil => rfl
  | cons m ms ih =>
    have h1 : ¬ Reads ms a := fun ⟨b, r, hm⟩ => h ⟨b, r, List.mem_cons_of_mem m hm⟩
    unfold decode
    rw [ih h1]
    have : decM m (.elem t (as.filter (fun p => p.1 ≠ a)) ks) = decM m (.elem t as ks) := by
      cases m with
      | attr u b r =>
        have hu : u ≠ a := fun e => h ⟨b, r, by rw [e]; exact List.mem_cons_self⟩
        unfold decM
        rw [getAttr_filter t as ks hu]
      | basics k p c b r =>
        unfold decM
        cases p <;> simp only [List.nil_append, List.cons_append, getAll_cons] <;> rfl
      | clss k p c ms' r =>
        unfold decM
        cases p <;> simp only [List.nil_append, List.cons_append, getAll_cons] <;> rfl
      | _ => unfold decM; rfl
    rw [this]

/-- C183: an attribute that is a member is in the record as it is in the file. -/
theorem kept {ms : List Member} (hn : (ms.map Member.name).Nodup) {a v : Str} {r : Bool} (h : .attr a .str r ∈ ms) {x : Xml}
    {fs : List (Str × Val)} (hd : decode ms x = some fs) (hv : getAttr x a = some v) (hne : v ≠ []) :
    field fs (mixedCase a) = .str v := by
  have := decode_field hd hn h
  unfold decM at this
  rw [hv] at this
  cases v with
  | nil => exact absurd rfl hne
  | cons c v =>
    have e : cons .str (c :: v) = some (field fs (mixedCase a)) := this
    simp only [cons] at e
    split at e
    · exact (Option.some.inj e).symm
    · cases e

theorem reads_iff (ms : List Member) (a : Str) : Reads ms a ↔ ms.any (fun m => match m with | .attr t _ _ => t = a | _ => false) = true := by
  rw [List.any_eq_true]
  constructor
  · rintro ⟨b, r, h⟩; exact ⟨_, h, by simp⟩
  · rintro ⟨m, hm, e⟩
    cases m with
    | attr t b r => have e : t = a := of_decide_eq_true e; subst e; exact ⟨b, r, hm⟩
    | _ => cases e

/-- C183: of the attributes that the DTD declares, all are members of the records but the type of an update and the owner
of an additional file; the language of a text is treated in C52. -/
theorem declared (t : Str) (d : Decl) (hd : (t, d) ∈ dtd) (a : Attr) (ha : a ∈ d.attrs) :
    a.name = s "xml:lang" ∨ ∃ ms, (t, ms) ∈ records ∧
      (Reads ms a.name ↔ ¬ (t = s "Update" ∧ a.name = s "type" ∨ t = s "AdditionalFile" ∧ a.name = s "owner")) := by
  have all : ∀ p ∈ dtd, ∀ a ∈ p.2.attrs, (a.name == s "xml:lang" || records.any (fun q => q.1 == p.1 &&
      (q.2.any (fun m => match m with | .attr t _ _ => decide (t = a.name) | _ => false) ==
        !(p.1 == s "Update" && a.name == s "type" || p.1 == s "AdditionalFile" && a.name == s "owner")))) = true := by
    decide +kernel
  have := all _ hd a ha
  rcases Bool.or_eq_true _ _ ▸ this with h | h
  · exact .inl (by simpa using h)
  · obtain ⟨q, hq, e⟩ := List.any_eq_true.1 h
    rw [Bool.and_eq_true] at e
    refine .inr ⟨q.2, ?_, ?_⟩
    · have : q.1 = t := by simpa using e.1
      rw [← this]; exact hq
    · rw [reads_iff, eq_of_beq e.2, Bool.not_eq_true', Bool.or_eq_false_iff, Bool.and_eq_false_iff, Bool.and_eq_false_iff]
      simp only [beq_eq_false_iff_ne, ne_eq, not_or, not_and_or]

end Pisi.Xml.Dtd
