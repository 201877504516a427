import Verif.Props.RecordNeeds
import Verif.Spec.IndexNeeds

/-!
# What must be in an index: C191
-/
namespace Pisi.Xml.Dtd

/-- The record is read and has no errors. -/
def ReadsOk (lang : Str) (ms : List Member) (n : Xml) : Prop := ∃ fs, decode ms n = some fs ∧ valid lang ms fs = true

/-- The member is read and has no errors. -/
def MemberOk (lang : Str) (m : Member) (n : Xml) : Prop := ∃ v, decM m n = some v ∧ validM lang m v = true

theorem members_ok {lang : Str} {ms : List Member} {n : Xml} (hn : (ms.map Member.name).Nodup) :
    ReadsOk lang ms n ↔ ∀ m ∈ ms, MemberOk lang m n := by
  constructor
  · rintro ⟨fs, h, hv⟩ m hm
    exact ⟨_, decode_field h hn hm, (valid_iff lang ms fs).1 hv m hm⟩
  · intro h
    have hs : (decode ms n).isSome = true := by
      rw [decode_isSome]
      intro m hm
      obtain ⟨v, hv, _⟩ := h m hm
      rw [hv]; rfl
    obtain ⟨fs, hf⟩ := Option.isSome_iff_exists.1 hs
    refine ⟨fs, hf, (valid_iff lang ms fs).2 fun m hm => ?_⟩
    obtain ⟨v, hv, hk⟩ := h m hm
    have := decode_field hf hn hm
    rw [hv] at this
    rw [← Option.some.inj this]; exact hk

theorem ok_some {lang : Str} {m : Member} {n : Xml} (h : ∀ v, decM m n = some v → validM lang m v = true) :
    MemberOk lang m n ↔ (decM m n).isSome = true := by
  constructor
  · rintro ⟨v, hv, _⟩; rw [hv]; rfl
  · intro hs
    obtain ⟨v, hv⟩ := Option.isSome_iff_exists.1 hs
    exact ⟨v, hv, h v hv⟩

theorem ok_basic {lang : Str} {n : Xml} (t : Str) (b : Basic) (r : Bool) :
    MemberOk lang (.basic t b r) n ↔ (decM (.basic t b r) n).isSome = true :=
  ok_some fun _ h => flat_valid (m := .basic _ _ _) trivial h lang

theorem ok_basics {lang : Str} {n : Xml} (k : Str) (p : List Str) (t : Str) (b : Basic) (r : Bool) :
    MemberOk lang (.basics k p t b r) n ↔ (decM (.basics k p t b r) n).isSome = true :=
  ok_some fun _ h => texts_valid h lang

theorem ok_loc {lang : Str} {n : Xml} (t : String) (r : Bool) : MemberOk lang (.loc (Classes.s t) r) n ↔ Tells lang n t := by
  constructor
  · rintro ⟨v, h, hv⟩
    exact ⟨(loc_valid h lang).1 hv, loc_words h⟩
  · rintro ⟨h1, h2⟩
    obtain ⟨v, hv⟩ := Option.isSome_iff_exists.1 ((local_text n t r).2 ⟨fun _ => readable_first h1, h2⟩)
    exact ⟨v, hv, (loc_valid hv lang).2 h1⟩

theorem ok_list {lang : Str} {n : Xml} (k : Str) (p : List Str) (t : Str) (ms : List Member) (r : Bool) :
    MemberOk lang (.clss k p t ms r) n ↔
      (r = true → ∃ y, Along (p ++ [t]) n y) ∧ ∀ y, Along (p ++ [t]) n y → ReadsOk lang ms y := by
  constructor
  · rintro ⟨v, h, hv⟩
    obtain ⟨hr, _⟩ := (class_list n k p t ms r).1 (by rw [h]; rfl)
    obtain ⟨l, rfl, _, _, hb⟩ := list_read h
    refine ⟨hr, fun y hy => ?_⟩
    obtain ⟨fs, h1, h2⟩ := hb y hy
    unfold validM at hv
    exact ⟨fs, h1, List.all_eq_true.1 hv _ h2⟩
  · rintro ⟨hr, h⟩
    obtain ⟨v, hv⟩ := Option.isSome_iff_exists.1 ((class_list n k p t ms r).2 ⟨hr, fun y hy => by
      obtain ⟨fs, hf, _⟩ := h y hy; rw [hf]; rfl⟩)
    refine ⟨v, hv, ?_⟩
    obtain ⟨l, rfl, _, ha, _⟩ := list_read hv
    unfold validM
    refine List.all_eq_true.2 fun w hw => ?_
    obtain ⟨y, fs, hy, hd, rfl⟩ := ha w hw
    obtain ⟨fs', hd', hk⟩ := h y hy
    rw [hd] at hd'; cases hd'; exact hk

theorem ok_req {lang : Str} {n : Xml} (t : Str) (ms : List Member) :
    MemberOk lang (.cls t ms true) n ↔ ∃ y, First n t y ∧ ReadsOk lang ms y := by
  unfold MemberOk decM
  cases h : getNode n t with
  | none =>
    constructor
    · rintro ⟨v, e, _⟩; cases e
    · rintro ⟨y, hy, _⟩; exact absurd hy ((getNode_none _ _).1 h y)
  | some x =>
    constructor
    · rintro ⟨v, e, hv⟩
      obtain ⟨fs, hf, rfl⟩ := Option.map_eq_some_iff.1 e
      exact ⟨x, (getNode_first _ _ _).1 h, fs, hf, hv⟩
    · rintro ⟨y, hy, fs, hf, hv⟩
      have := (getNode_first _ _ _).2 hy
      rw [h] at this; cases this
      exact ⟨.obj fs, by simp only [hf]; rfl, hv⟩

theorem ok_opt {lang : Str} {n : Xml} (t : Str) (ms : List Member) :
    MemberOk lang (.cls t ms false) n ↔ ∀ y, First n t y → ReadsOk lang ms y := by
  unfold MemberOk decM
  cases h : getNode n t with
  | none =>
    constructor
    · intro _ y hy; exact absurd hy ((getNode_none _ _).1 h y)
    · intro _; exact ⟨.none, rfl, rfl⟩
  | some x =>
    constructor
    · rintro ⟨v, e, hv⟩ y hy
      have := (getNode_first _ _ _).2 hy
      rw [h] at this; cases this
      obtain ⟨fs, hf, rfl⟩ := Option.map_eq_some_iff.1 e
      exact ⟨fs, hf, hv⟩
    · intro hh
      obtain ⟨fs, hf, hv⟩ := hh x ((getNode_first _ _ _).1 h)
      exact ⟨.obj fs, by simp only [hf]; rfl, hv⟩

/-- Records without records and texts inside have no errors once they are read. -/
theorem ok_flat {lang : Str} {ms : List Member} (hf : ∀ m ∈ ms, Flat m) (hn : (ms.map Member.name).Nodup) (n : Xml) :
    ReadsOk lang ms n ↔ (decode ms n).isSome = true := by
  constructor
  · rintro ⟨fs, h, _⟩; rw [h]; rfl
  · intro h
    obtain ⟨fs, hfs⟩ := Option.isSome_iff_exists.1 h
    exact ⟨fs, hfs, flat_class hf hn hfs lang⟩

theorem archive_reads_any (y : Xml) : (decode Classes.archive y).isSome = true ↔
    Word y ∧ HasAttr y "type" ∧ HasAttr y "sha1sum" ∧ PlainAttr y "norootdir" := by
  rw [decode_isSome]
  simp only [Classes.archive, List.forall_mem_cons, own_text, attr_req, attr_opt]
  constructor
  · rintro ⟨h1, h2, h3, h4, _⟩; exact ⟨h1, h2, h3, h4⟩
  · rintro ⟨h1, h2, h3, h4⟩; exact ⟨h1, h2, h3, h4, fun _ h => (List.not_mem_nil h).elim⟩

section
variable (lang : Str) (y : Xml)

theorem ok_packager : ReadsOk lang Classes.packager y ↔ HasWords y "Name" ∧ HasWord y "Email" :=
  (ok_flat (by simp [Classes.packager, Flat]) (by decide +kernel) y).trans (packager_reads y)
theorem ok_archive : ReadsOk lang Classes.archive y ↔
    Word y ∧ HasAttr y "type" ∧ HasAttr y "sha1sum" ∧ PlainAttr y "norootdir" :=
  (ok_flat (by simp [Classes.archive, Flat]) (by decide +kernel) y).trans (archive_reads_any y)
theorem ok_patch : ReadsOk lang Classes.patch y ↔
    Word y ∧ PlainAttr y "compressionType" ∧ IntAttr y "level" ∧ PlainAttr y "target" :=
  (ok_flat (by simp [Classes.patch, Flat]) (by decide +kernel) y).trans (patch_reads y)
theorem ok_dependency : ReadsOk lang Classes.dependency y ↔ DependencyNeeds y :=
  (ok_flat (by simp [Classes.dependency, Flat]) (by decide +kernel) y).trans (dependency_reads y)
theorem ok_path : ReadsOk lang Classes.path y ↔ Word y ∧ PlainAttr y "fileType" ∧ PlainAttr y "permanent" :=
  (ok_flat (by simp [Classes.path, Flat]) (by decide +kernel) y).trans (path_reads_any y)
theorem ok_comar : ReadsOk lang Classes.comarProvide y ↔ Word y ∧ HasAttr y "script" :=
  (ok_flat (by simp [Classes.comarProvide, Flat]) (by decide +kernel) y).trans (comar_reads y)
theorem ok_additional : ReadsOk lang Classes.additionalFile y ↔
    Word y ∧ HasAttr y "target" ∧ PlainAttr y "permission" :=
  (ok_flat (by simp [Classes.additionalFile, Flat]) (by decide +kernel) y).trans (additional_reads y)
theorem ok_update : ReadsOk lang Classes.update y ↔ UpdateTells y :=
  (ok_flat update_flat update_names y).trans (update_reads_any y)

theorem read_ok (ms : List Member) : (∃ fs, read lang ms y = some fs) ↔ ReadsOk lang ms y := by
  rw [← Option.isSome_iff_exists, read_isSome]; exact Iff.rfl

theorem ok_component : ReadsOk lang Classes.component y ↔ ComponentNeeds lang y := (read_ok lang y _).symm.trans (component_iff lang y)
theorem ok_distribution : ReadsOk lang Classes.distribution y ↔ DistributionNeeds lang y :=
  (read_ok lang y _).symm.trans (distribution_iff lang y)

theorem ok_source : ReadsOk lang Classes.specSource y ↔ SourceTells lang y := by
  rw [members_ok source_names]
  simp only [Classes.specSource, List.forall_mem_cons, ok_basic, ok_basics, ok_loc, ok_list, ok_req, ok_packager, ok_archive,
    ok_patch, ok_dependency, tag_req, may_plain, words_list, Bool.false_eq_true, false_implies, true_and, forall_const]
  constructor
  · rintro ⟨h1, h2, h3, h4, h5, h6, h7, h8, h9, h10, h11, h12, h13, h14, h15, _⟩
    exact ⟨h1, h2, h3, h4, h5, h6, h7, h8, h9, h10, h11, h12, h13, h14, h15⟩
  · rintro ⟨h1, h2, h3, h4, h5, h6, h7, h8, h9, h10, h11, h12, h13, h14, h15⟩
    exact ⟨h1, h2, h3, h4, h5, h6, h7, h8, h9, h10, h11, h12, h13, h14, h15, fun _ h => (List.not_mem_nil h).elim⟩

theorem ok_package : ReadsOk lang Classes.specPackage y ↔ PackageTells lang y := by
  rw [members_ok package_names]
  simp only [Classes.specPackage, List.forall_mem_cons, ok_basic, ok_basics, ok_loc, ok_list, ok_path, ok_comar, ok_additional,
    ok_update, ok_dependency, tag_req, may_plain, words_list, Bool.false_eq_true, false_implies, true_and]
  constructor
  · rintro ⟨h1, h2, h3, h4, h5, h6, h7, h8, h9, h10, h11, h12, h13, h14, _⟩
    exact ⟨h1, h2, h3, h4, h5, h6, h7, h8, h9, h10, h11, h12, h13, h14⟩
  · rintro ⟨h1, h2, h3, h4, h5, h6, h7, h8, h9, h10, h11, h12, h13, h14⟩
    exact ⟨h1, h2, h3, h4, h5, h6, h7, h8, h9, h10, h11, h12, h13, h14, fun _ h => (List.not_mem_nil h).elim⟩

theorem ok_spec : ReadsOk lang Classes.specFile y ↔ SpecTells lang y := by
  rw [members_ok spec_names]
  simp only [Classes.specFile, List.forall_mem_cons, ok_list, ok_req, ok_source, ok_package, ok_update, ok_component,
    Bool.false_eq_true, false_implies, true_and, forall_const]
  constructor
  · rintro ⟨h1, h2, h3, h4, _⟩; exact ⟨h1, h2, h3, h4⟩
  · rintro ⟨h1, h2, h3, h4⟩; exact ⟨h1, h2, h3, h4, fun _ h => (List.not_mem_nil h).elim⟩

theorem ok_meta : ReadsOk lang Classes.metaPackage y ↔
    MetaPackageReads y ∧ Readable lang y "Summary" ∧ Readable lang y "Description" := by
  constructor
  · rintro ⟨fs, h, hv⟩
    exact ⟨(meta_package_reads y).1 (by rw [h]; rfl), (meta_package_valid h lang).1 hv⟩
  · rintro ⟨h, hr⟩
    obtain ⟨fs, hf⟩ := Option.isSome_iff_exists.1 ((meta_package_reads y).2 h)
    exact ⟨fs, hf, (meta_package_valid hf lang).2 hr⟩

end

theorem meta_history {y : Xml} {fs : List (Str × Val)} (h : decode Classes.metaPackage y = some fs) :
    (field fs (Classes.s "history")).items.isEmpty = false ↔ ∃ z, Along [s "History", s "Update"] y z := by
  have hm := meta_fields h (.clss (Classes.s "History") [Classes.s "History"] (Classes.s "Update") Classes.update false)
    (by simp [Classes.metaPackage, Classes.specPackage])
  obtain ⟨l, el, _, ha, hb⟩ := list_read hm
  have el : field fs (Classes.s "history") = .list l := el
  rw [el]
  change l.isEmpty = false ↔ _
  constructor
  · intro hne
    cases l with
    | nil => cases hne
    | cons w l =>
      obtain ⟨z, _, hz, _⟩ := ha w List.mem_cons_self
      exact ⟨z, hz⟩
  · rintro ⟨z, hz⟩
    obtain ⟨_, _, hm⟩ := hb z hz
    cases l with
    | nil => cases hm
    | cons => rfl

/-- **C191.**  An index is read exactly if every record in it is complete. -/
theorem index_iff (lang : Str) (x : Xml) : (∃ fs, readIndex lang x = some fs) ↔ IndexNeeds lang x := by
  have hn : (Classes.index.map Member.name).Nodup := by decide +kernel
  have hok : ReadsOk lang Classes.index x ↔ (∀ y, First x (s "Distribution") y → DistributionNeeds lang y) ∧
      (∀ y, Along [s "SpecFile"] x y → SpecTells lang y) ∧
      (∀ y, Along [s "Package"] x y → MetaPackageReads y ∧ Readable lang y "Summary" ∧ Readable lang y "Description") ∧
      ∀ y, Along [s "Component"] x y → ComponentNeeds lang y := by
    rw [members_ok hn]
    simp only [Classes.index, List.forall_mem_cons, ok_list, ok_opt, ok_distribution, ok_spec, ok_component, ok_meta,
      Bool.false_eq_true, false_implies, true_and]
    constructor
    · rintro ⟨h1, h2, h3, h4, _⟩; exact ⟨h1, h2, h3, h4⟩
    · rintro ⟨h1, h2, h3, h4⟩; exact ⟨h1, h2, h3, h4, fun _ h => (List.not_mem_nil h).elim⟩
  have hh : ∀ fs, decode Classes.index x = some fs →
      ((field fs (Classes.s "packages")).items.any (fun p => (p.dot (Classes.s "history")).items.isEmpty) = false ↔
        ∀ y, Along [s "Package"] x y → ∃ z, Along [s "History", s "Update"] y z) := by
    intro fs h
    have hm := decode_field h hn (m := .clss (Classes.s "Packages") [] (Classes.s "Package") Classes.metaPackage false)
      (by simp [Classes.index])
    obtain ⟨l, el, _, ha, hb⟩ := list_read hm
    have el : field fs (Classes.s "packages") = .list l := el
    rw [el]
    change l.any _ = false ↔ _
    rw [List.any_eq_false]
    constructor
    · intro hl y hy
      obtain ⟨pf, h1, h2⟩ := hb y hy
      exact (meta_history h1).1 (by simpa [Val.dot] using hl _ h2)
    · intro hl w hw
      obtain ⟨y, pf, hy, h1, rfl⟩ := ha w hw
      have := (meta_history h1).2 (hl y hy)
      simp only [Val.dot, this]; simp
  constructor
  · rintro ⟨fs, e⟩
    unfold readIndex at e
    cases h : decode Classes.index x with
    | none => rw [h] at e; cases e
    | some gs =>
      rw [h] at e
      simp only at e
      by_cases ha : (field gs (Classes.s "packages")).items.any (fun p => (p.dot (Classes.s "history")).items.isEmpty) = true
      · rw [if_pos ha] at e; cases e
      · rw [if_neg ha] at e
        by_cases hv : valid lang Classes.index gs = true
        · obtain ⟨h1, h2, h3, h4⟩ := hok.1 ⟨gs, h, hv⟩
          have h5 := (hh gs h).1 (by simpa using ha)
          exact ⟨h1, h2, fun y hy => meta_needs.2 ⟨(h3 y hy).1, (h3 y hy).2.1, (h3 y hy).2.2, h5 y hy⟩, h4⟩
        · rw [if_neg hv] at e; cases e
  · rintro ⟨h1, h2, h3, h4⟩
    obtain ⟨fs, hf, hv⟩ := hok.2 ⟨h1, h2, fun y hy => by
      obtain ⟨a, b, c, _⟩ := meta_needs.1 (h3 y hy); exact ⟨a, b, c⟩, h4⟩
    have ha := (hh fs hf).2 fun y hy => (meta_needs.1 (h3 y hy)).2.2.2
    refine ⟨fs, ?_⟩
    unfold readIndex
    rw [hf]
    simp only [ha, if_neg (by simp : ¬ (false = true)), if_pos hv]

/-- **C191.**  What is in the records: no text of another record helps one that has none. -/
theorem index_one (lang : Str) (x : Xml) {y : Xml} (hy : Along [s "Package"] x y) (h : ¬ MetaPackageNeeds lang y) :
    ¬ ∃ fs, readIndex lang x = some fs := fun hr => h (((index_iff lang x).1 hr).packages y hy)

def anIndex (ks : List Xml) : Xml := .elem (s "PISI") [] ks

def goodPackage : Xml := .elem (s "Package") [] [leafOf "Name" "a", leafOf "Summary" "S", leafOf "Description" "D", leafOf "PartOf" "p",
  leafOf "License" "l", .elem (s "History") [] [anUpdate], leafOf "Distribution" "d", leafOf "DistributionRelease" "1",
  leafOf "Architecture" "any", leafOf "InstalledSize" "10"]

/-- A specification as its author writes it, whose package has no texts of its own, cannot be read inside an index, though it
can be read by itself. -/
example : (∃ fs, readIndex (s "tr") (anIndex [goodPackage, goodPackage]) = some fs) ∧ (∃ fs, readIndex (s "tr") (anIndex []) = some fs) ∧
    (∃ fs, readSpec (s "de") sample = some fs) ∧ ¬ ∃ fs, readIndex (s "de") (anIndex [.elem (s "SpecFile") [] sample.kids]) = some fs := by
  have h : (readIndex (s "tr") (anIndex [goodPackage, goodPackage])).isSome = true ∧ (readIndex (s "tr") (anIndex [])).isSome = true ∧
    (readIndex (s "de") (anIndex [.elem (s "SpecFile") [] sample.kids])).isSome = false := by decide +kernel
  refine ⟨Option.isSome_iff_exists.1 h.1, Option.isSome_iff_exists.1 h.2.1, Option.isSome_iff_exists.1 sample_reads, fun he => ?_⟩
  have := h.2.2; rw [Option.isSome_iff_exists.2 he] at this; cases this

end Pisi.Xml.Dtd
