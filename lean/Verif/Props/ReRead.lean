import Verif.Props.RecordNeeds
import Verif.Spec.ReRead

/-!
# What was read can be written and read again: C192
-/
namespace Pisi.Xml
open Pisi.Xml.Dtd

theorem clean_item {l : List Val} (h : Clean (.list l)) {x : Val} (hx : x ∈ l) : Clean x :=
  ⟨fun w => h.1 (.item _ _ _ hx w), fun w => h.2.1 (.item _ _ _ hx w), fun d w => h.2.2 d (.item _ _ _ hx w)⟩

theorem clean_field {fs : List (Str × Val)} (h : Clean (.obj fs)) {k : Str} {x : Val} (hx : (k, x) ∈ fs) : Clean x :=
  ⟨fun w => h.1 (.field _ _ _ _ hx w), fun w => h.2.1 (.field _ _ _ _ hx w), fun d w => h.2.2 d (.field _ _ _ _ hx w)⟩

theorem clean_tail {p : Str × Val} {fs : List (Str × Val)} (h : Clean (.obj (p :: fs))) : Clean (.obj fs) := by
  have up : ∀ w, Within w (.obj fs) → (∃ g, w = .obj g) ∨ Within w (.obj (p :: fs)) := by
    intro w hw
    cases hw with
    | self => exact .inl ⟨_, rfl⟩
    | field x k _ hk hw => exact .inr (.field _ x k _ (List.mem_cons_of_mem _ hk) hw)
  refine ⟨fun w => ?_, fun w => ?_, fun d w => ?_⟩
  · rcases up _ w with ⟨g, e⟩ | w
    · cases e
    · exact h.1 w
  · rcases up _ w with ⟨g, e⟩ | w
    · cases e
    · exact h.2.1 w
  · rcases up _ w with ⟨g, e⟩ | w
    · cases e
    · exact h.2.2 d w

theorem cons_safe {a : Bool} {b : Basic} {t : Str} {v : Val} (h : cons b t = some v) (hne : t ≠ []) (hc : Clean v)
    (hs : a = false → Solid t) (hb : a = true → b ≠ .uni) : Safe a b v := by
  cases b with
  | str =>
    change (if ascii t then some (Val.str t) else Option.none) = some v at h
    by_cases e : ascii t = true
    · rw [if_pos e] at h; cases h; exact ⟨hne, (ascii_iff t).1 e, hs⟩
    · rw [if_neg e] at h; cases h
  | uni =>
    cases h
    exact ⟨hne, fun ha => absurd rfl (hb ha), hs⟩
  | int =>
    obtain ⟨n, _, rfl⟩ := Option.map_eq_some_iff.1 h
    exact fun e => hc.1 (e ▸ .self _)
  | long =>
    obtain ⟨n, _, rfl⟩ := Option.map_eq_some_iff.1 h
    exact fun e => hc.2.1 (e ▸ .self _)

theorem decBasic_safe {a : Bool} {b : Basic} {r : Bool} {o : Option Str} {v : Val} (h : decBasic b r o = some v) (hc : Clean v)
    (hs : a = false → ∀ t, o = some t → t ≠ [] → Solid t) (hb : a = true → b ≠ .uni) :
    (v = .none ∧ r = false) ∨ Safe a b v := by
  unfold decBasic at h
  split at h
  · rename_i c t
    exact .inr (cons_safe h (by simp) hc (fun ha => hs ha _ rfl (by simp)) hb)
  · cases r with
    | true => cases h
    | false => cases h; exact .inl ⟨rfl, rfl⟩

theorem nodeText_solid {n : Xml} {o : Option Str} (h : nodeText n = some o) {t : Str} (ht : o = some t) (hne : t ≠ []) : Solid t := by
  unfold nodeText at h
  split at h
  · cases h; cases ht
  · rename_i s _ _
    cases h; cases ht
    obtain ⟨_, _, _, _, hs⟩ := strip_split s
    exact hs hne
  · cases h

theorem decTag_safe {t : Str} {b : Basic} {r : Bool} {n : Xml} {v : Val} (h : decTag t b r n = some v) (hc : Clean v) :
    (v = .none ∧ r = false) ∨ Safe false b v := by
  unfold decTag at h
  split at h
  · obtain ⟨o, ho, hv⟩ := Option.bind_eq_some_iff.1 h
    exact decBasic_safe hv hc (fun _ _ => nodeText_solid ho) (by simp)
  · exact decBasic_safe h hc (fun _ _ e => by cases e) (by simp)

theorem loc_safe {ns : List Xml} {d : List (Str × Str)} (h : decLangs ns [] = some d) (hc : Clean (.loc d)) : SafeText d := by
  obtain ⟨h1, h2⟩ := text_read ns d h
  refine ⟨h1, ?_⟩
  rintro ⟨l, x⟩ hp
  obtain ⟨as, n, bs, rfl, hl, hx, _⟩ := (h2 l x).1 hp
  have hlne : langOf n ≠ [] := by
    unfold langOf
    split
    · simp
    · decide
  refine ⟨by rw [← hl]; exact hlne, hc.2.2 d (.self _) _ hp, ?_⟩
  have hs : (decLangs (as ++ n :: bs) []).isSome = true := by rw [h]; rfl
  obtain ⟨y, hy, hne⟩ := (word_text n).1 ((decLangs_isSome _ _).1 hs n (by simp))
  rw [hx] at hy; cases hy
  exact nodeText_solid hx rfl hne

theorem decList_spec {r : Bool} {f : Xml → Option Val} {ns : List Xml} {v : Val} (h : decList r f ns = some v) :
    ∃ l, v = .list l ∧ (∀ x ∈ l, ∃ y ∈ ns, f (dummy y) = some x) ∧ (r = true → l ≠ []) := by
  unfold decList at h
  split at h
  · cases h
  · rename_i hne
    obtain ⟨l, hl, rfl⟩ := Option.map_eq_some_iff.1 h
    refine ⟨l, rfl, fun x hx => mapM_some_mem hl x hx, ?_⟩
    rintro hr rfl
    cases ns with
    | nil => exact hne ⟨rfl, hr⟩
    | cons y ys =>
      obtain ⟨b, hb, _⟩ := mapM_mem_some hl y List.mem_cons_self
      cases hb

/-- Members declared twice have one value. -/
theorem decode_entry {ms : List Member} {n : Xml} {fs : List (Str × Val)} (h : decode ms n = some fs) {p : Str × Val} (hp : p ∈ fs) :
    ∃ m ∈ ms, m.name = p.1 ∧ decM m n = some p.2 := by
  induction ms generalizing fs with
  | nil => cases h; cases hp
  | cons m ms ih =>
    obtain ⟨v, fs', h1, h2, rfl⟩ := decode_cons h
    rcases List.mem_cons.1 hp with rfl | hp
    · exact ⟨m, List.mem_cons_self, rfl, h1⟩
    · obtain ⟨k, hk, h⟩ := ih h2 hp
      exact ⟨k, List.mem_cons_of_mem _ hk, h⟩

theorem decode_functional {ms : List Member} (hw : WellFormed ms) {n : Xml} {fs : List (Str × Val)} (h : decode ms n = some fs) :
    Functional fs := by
  induction ms generalizing fs with
  | nil => cases h; intro p hp; cases hp
  | cons m ms ih =>
    obtain ⟨v, fs', h1, h2, rfl⟩ := decode_cons h
    unfold WellFormed at hw
    obtain ⟨ha, _, hw⟩ := hw
    have key : ∀ p ∈ fs', p.1 = m.name → p.2 = v := by
      intro p hp e
      obtain ⟨k, hk, hn, hd⟩ := decode_entry h2 hp
      rcases ha k hk with hr | ⟨hne, _⟩
      · obtain ⟨t, b, r, q, rfl, rfl⟩ := redeclared_form hr
        have : ∀ (r : Bool) (w : Val), decM (.basic t b r) n = some w → decM (.basic t b false) n = some w := by
          intro r w hw
          cases r
          · exact hw
          · exact req_opt hw
        have e1 := this _ _ h1
        rw [this _ _ hd] at e1
        exact Option.some.inj e1
      · exact absurd (e.symm.trans hn.symm) hne
    intro p hp q hq e
    rcases List.mem_cons.1 hp with rfl | hp <;> rcases List.mem_cons.1 hq with rfl | hq
    · rfl
    · exact (key q hq e.symm).symm
    · exact key p hp e
    · exact ih hw h2 p hp q hq e

mutual
theorem decM_safe : ∀ (m : Member) (n : Xml) (v : Val), WellFormedM m → PlainAttrsM m → decM m n = some v → Clean v →
    TypedM Safe SafeText m v
  | .attr t b r, n, v, _, hp, h, hc => by
    unfold decM at h
    unfold TypedM
    exact decBasic_safe h hc (by simp) (fun _ => hp)
  | .str t b r, n, v, _, _, h, hc => by
    unfold decM at h
    unfold TypedM
    obtain ⟨o, ho, hv⟩ := Option.bind_eq_some_iff.1 h
    exact decBasic_safe hv hc (fun _ _ => nodeText_solid ho) (by simp)
  | .basic t b r, n, v, _, _, h, hc => by
    unfold decM at h
    unfold TypedM
    exact decTag_safe h hc
  | .loc t r, n, v, _, _, h, hc => by
    unfold decM decLoc at h
    unfold TypedM
    split at h
    · cases h
    · rename_i hne
      obtain ⟨d, hd, rfl⟩ := Option.map_eq_some_iff.1 h
      refine ⟨d, rfl, loc_safe hd hc, ?_⟩
      rintro hr rfl
      cases hg : getAll n [t] with
      | nil => rw [hg] at hne; exact hne ⟨rfl, hr⟩
      | cons y ys =>
        obtain ⟨x, hx⟩ := (lang_read hd (langOf y)).2 ⟨y, by rw [hg]; exact List.mem_cons_self, rfl⟩
        cases hx
  | .basics k p t b r, n, v, _, _, h, hc => by
    unfold decM at h
    unfold TypedM
    obtain ⟨l, rfl, hl, hr⟩ := decList_spec h
    refine ⟨l, rfl, fun x hx => ?_, hr⟩
    obtain ⟨y, _, e⟩ := hl x hx
    rcases decTag_safe e (clean_item hc hx) with ⟨_, h⟩ | h
    · cases h
    · exact h
  | .cls t ms r, n, v, hw, hp, h, hc => by
    unfold decM at h
    unfold TypedM
    unfold WellFormedM at hw
    unfold PlainAttrsM at hp
    split at h
    · rename_i x _
      obtain ⟨fs, hf, rfl⟩ := Option.map_eq_some_iff.1 h
      exact .inr ⟨fs, rfl, decode_safe ms x fs hw hp hf hc, decode_functional hw hf⟩
    · cases r with
      | true => cases h
      | false => cases h; exact .inl ⟨rfl, rfl⟩
  | .clss k p t ms r, n, v, hw, hp, h, hc => by
    unfold decM at h
    unfold TypedM
    unfold WellFormedM at hw
    unfold PlainAttrsM at hp
    obtain ⟨l, rfl, hl, hr⟩ := decList_spec h
    refine ⟨l, rfl, fun x hx => ?_, hr⟩
    obtain ⟨y, _, e⟩ := hl x hx
    split at e
    · rename_i z _
      obtain ⟨fs, hf, rfl⟩ := Option.map_eq_some_iff.1 e
      exact ⟨fs, rfl, decode_safe ms z fs hw hp hf (clean_item hc hx), decode_functional hw hf⟩
    · cases e

/-- What is read from any tree is safe, up to zeros and the names of languages. -/
theorem decode_safe : ∀ (ms : List Member) (n : Xml) (fs : List (Str × Val)), WellFormed ms → PlainAttrs ms → decode ms n = some fs →
    Clean (.obj fs) → Typed Safe SafeText ms fs
  | [], n, fs, _, _, h, _ => by
    unfold decode at h; cases h
    unfold Typed; rfl
  | m :: ms, n, fs, hw, hp, h, hc => by
    unfold WellFormed at hw
    unfold PlainAttrs at hp
    obtain ⟨v, fs', h1, h2, rfl⟩ := decode_cons h
    unfold Typed
    exact ⟨v, fs', rfl, decM_safe m n v hw.2.1 hp.1 h1 (clean_field hc List.mem_cons_self),
      decode_safe ms n fs' hw.2.2 hp.2 h2 (clean_tail hc)⟩
end

/-- **C192, full statement.**  What was read can be written, and what is written reads as the same. -/
def ReReadFull : Prop := ∀ (lang tag : Str) (ms : List Member) (n : Xml) (fs : List (Str × Val)), WellFormed ms → PlainAttrs ms →
  read lang ms n = some fs → ∃ n', write lang tag ms fs = some n' ∧ read lang ms n' = some fs

/-- **C192, partial.**  So it is if no number is 0 and the names of languages are ASCII, also if blanks are added to the file. -/
theorem reread_partial (lang tag : Str) (ms : List Member) (n : Xml) (fs : List (Str × Val)) (hw : WellFormed ms) (hp : PlainAttrs ms)
    (h : read lang ms n = some fs) (hc : Clean (.obj fs)) :
    ∃ n', write lang tag ms fs = some n' ∧ ∀ n'', Laid n' n'' → read lang ms n'' = some fs := by
  have hr : decode ms n = some fs ∧ valid lang ms fs = true := by
    unfold read at h
    cases hd : decode ms n with
    | none => rw [hd] at h; cases h
    | some gs =>
      rw [hd] at h
      by_cases hv : valid lang ms gs = true
      · simp only [hv, if_true] at h; cases h; exact ⟨rfl, hv⟩
      · simp only [hv] at h; cases h
  have hf := decode_functional hw hr.1
  have ht := decode_safe ms n fs hw hp hr.1 hc
  obtain ⟨n', hn'⟩ := encode_some (fun _ h => h) ms fs fs (.elem tag [] []) (fun p hp => field_mem hf hp) ht
  have hwr : write lang tag ms fs = some n' := by unfold write; rw [if_pos hr.2]; exact hn'
  exact ⟨n', hwr, fun n'' hl => round_trip_partial lang tag ms fs n' n'' hw hf ht hwr hl⟩

/-- A size of 0 is read but cannot be written. -/
theorem reread_refuted : ¬ ReReadFull := by
  intro h
  obtain ⟨n, hn, _⟩ := h "en".toList "Package".toList [.basic "InstalledSize".toList .long true]
    (.elem "Package".toList [] [.elem "InstalledSize".toList [] [.text "0".toList]]) [("installedSize".toList, .long 0)]
    (by simp [WellFormed, WellFormedM]) (by simp [PlainAttrs, PlainAttrsM]) (by rfl)
  cases hn

/-- The size 0 of an empty file is lost when the list of files is written again. -/
theorem reread_refuted_zero : ¬ ReReadFull := by
  intro h
  obtain ⟨n, hn, hr⟩ := h "en".toList "File".toList [.basic "Size".toList .long false]
    (.elem "File".toList [] [.elem "Size".toList [] [.text "0".toList]]) [("size".toList, .long 0)]
    (by simp [WellFormed, WellFormedM]) (by simp [PlainAttrs, PlainAttrsM]) (by rfl)
  have e : write "en".toList "File".toList [.basic "Size".toList .long false] [("size".toList, .long 0)] =
    some (.elem "File".toList [] []) := by rfl
  rw [e] at hn
  cases hn
  have e2 : read "en".toList [.basic "Size".toList .long false] (.elem "File".toList [] []) = some [("size".toList, .none)] := by rfl
  rw [e2] at hr
  simp at hr

/-- The classes of pisi. -/
theorem plain_attrs : PlainAttrs Classes.specFile ∧ PlainAttrs Classes.metaData ∧ PlainAttrs Classes.files ∧
    PlainAttrs Classes.index ∧ PlainAttrs Classes.component ∧ PlainAttrs Classes.distribution := by
  simp [PlainAttrs, PlainAttrsM, Classes.specFile, Classes.metaData, Classes.files, Classes.index, Classes.component,
    Classes.distribution, Classes.specSource, Classes.specPackage, Classes.metaPackage, Classes.metaSource, Classes.packager,
    Classes.archive, Classes.patch, Classes.dependency, Classes.path, Classes.comarProvide, Classes.additionalFile, Classes.update,
    Classes.fileInfo]

/-! ## An example -/

mutual
def cleanB : Val → Bool
  | .int n => n ≠ 0
  | .long n => n ≠ 0
  | .loc d => d.all (fun p => ascii p.1)
  | .list l => cleanL l
  | .obj fs => cleanF fs
  | _ => true
def cleanL : List Val → Bool
  | [] => true
  | x :: l => cleanB x && cleanL l
def cleanF : List (Str × Val) → Bool
  | [] => true
  | (_, x) :: l => cleanB x && cleanF l
end

theorem cleanL_mem {l : List Val} (h : cleanL l = true) {x : Val} (hx : x ∈ l) : cleanB x = true := by
  induction l with
  | nil => cases hx
  | cons y l ih =>
    unfold cleanL at h
    rw [Bool.and_eq_true] at h
    rcases List.mem_cons.1 hx with rfl | hx
    · exact h.1
    · exact ih h.2 hx

theorem cleanF_mem {l : List (Str × Val)} (h : cleanF l = true) {k : Str} {x : Val} (hx : (k, x) ∈ l) : cleanB x = true := by
  induction l with
  | nil => cases hx
  | cons y l ih =>
    obtain ⟨j, y⟩ := y
    unfold cleanF at h
    rw [Bool.and_eq_true] at h
    rcases List.mem_cons.1 hx with e | hx
    · cases e; exact h.1
    · exact ih h.2 hx

theorem cleanB_within {w v : Val} (hw : Within w v) : cleanB v = true → cleanB w = true := by
  induction hw with
  | self => exact id
  | item x l hx _ ih => intro h; unfold cleanB at h; exact ih (cleanL_mem h hx)
  | field x k fs hx _ ih => intro h; unfold cleanB at h; exact ih (cleanF_mem h hx)

theorem cleanB_sound {v : Val} (h : cleanB v = true) : Clean v := by
  refine ⟨fun w => ?_, fun w => ?_, fun d w p hp => ?_⟩
  · have := cleanB_within w h
    simp [cleanB] at this
  · have := cleanB_within w h
    simp [cleanB] at this
  · have := cleanB_within w h
    unfold cleanB at this
    exact (ascii_iff _).1 (List.all_eq_true.1 this p hp)

/-- Metadata of a package is read, and meets the conditions. -/
example : ∃ fs, read "tr".toList Classes.metaData (aMeta "10" [anUpdate]) = some fs ∧ Clean (.obj fs) := by
  have h : ((read "tr".toList Classes.metaData (aMeta "10" [anUpdate])).any cleanF) = true := by decide +kernel
  cases e : read "tr".toList Classes.metaData (aMeta "10" [anUpdate]) with
  | none => rw [e] at h; cases h
  | some fs => rw [e] at h; exact ⟨fs, rfl, cleanB_sound (v := .obj fs) h⟩

end Pisi.Xml
