import Verif.Spec.Calls
import Verif.Props.RemoveAgain

/-!
# C226: installing and removing the files of a package goes step by step
-/
namespace Pisi.FS
open Pisi.Path

theorem Calls.append {R : FS → FS → Prop} {s t u : FS} {l m : List FS} (h : Calls R s l t) (h' : Calls R t m u) : Calls R s (l ++ m) u := by
  induction h with
  | nil => exact h'
  | cons hc _ ih => exact .cons hc (ih h')

/-- The disks a computation goes through are steps from `s` on, and a result is the last of them. -/
def Tr.Fine {β : Type} (R : FS → FS → Prop) (x : Tr β) (pr : β → FS) (s : FS) : Prop := ∃ t, Calls R s x.1 t ∧ ∀ b, x.2 = .ok b → pr b = t

theorem Tr.Fine.bind {R : FS → FS → Prop} {β γ : Type} {x : Tr β} {f : β → Tr γ} {pr : β → FS} {pr' : γ → FS} {s : FS} (h : x.Fine R pr s)
    (hf : ∀ b, x.2 = .ok b → (f b).Fine R pr' (pr b)) : (Tr.bind x f).Fine R pr' s := by
  obtain ⟨t, h1, h2⟩ := h
  rcases x with ⟨l, e | b⟩
  · exact ⟨t, h1, fun b hb => by simp [Tr.bind] at hb⟩
  · obtain ⟨u, h3, h4⟩ := hf b rfl
    rw [h2 b rfl] at h3
    exact ⟨u, h1.append h3, h4⟩

theorem Tr.fine_pure {R : FS → FS → Prop} {β : Type} {pr : β → FS} {s : FS} {b : β} (h : pr b = s) : Tr.Fine R (([], .ok b) : Tr β) pr s :=
  ⟨s, .nil s, fun c hc => by cases hc; exact h⟩

theorem Tr.fine_fail {R : FS → FS → Prop} {β : Type} {pr : β → FS} {s : FS} {e : FErr} : Tr.Fine R (([], .error e) : Tr β) pr s :=
  ⟨s, .nil s, fun c hc => by cases hc⟩

theorem Tr.fine_atomic {R : FS → FS → Prop} {s : FS} {r : Except FErr FS} (h : ∀ t, r = .ok t → R s t) : (Tr.atomic r).Fine R id s := by
  rcases r with e | t
  · exact Tr.fine_fail
  · exact ⟨t, .cons (h t rfl) (.nil t), fun b hb => by cases hb; rfl⟩

theorem Drop.call {a b : FS} : Drop a b → Call a b
  | .unlink p n h hn h' hs => .unlink p n h hn h' hs
  | .rmdir p h he h' hs => .rmdir p h he h' hs

theorem sameBut_del (s : FS) (p : Str) : SameBut s (s.del p) [p] := by
  intro q hq
  rw [Dict.get_del, if_neg (fun e => hq (by simp [e]))]

theorem sameBut_put (s : FS) (p : Str) (n : Node) : SameBut s (s.put p n) [p] := by
  intro q hq
  rw [Dict.get_put, if_neg (fun e => hq (by simp [e]))]

theorem unlink_drop {s t : FS} {p : Str} (h : unlink s p = .ok t) : Drop s t := by
  unfold unlink at h
  split at h
  · rename_i c e
    cases h
    exact .unlink p (.file c) e (by simp) (by simp [Dict.get_del]) (sameBut_del s p)
  · rename_i c e
    cases h
    exact .unlink p (.link c) e (by simp) (by simp [Dict.get_del]) (sameBut_del s p)
  · cases h

theorem unlink_call {s t : FS} {p : Str} (h : unlink s p = .ok t) : Call s t := (unlink_drop h).call

theorem listdir_true {s : FS} {d : Str} (h : listdirEmpty s d = .ok true) : ∀ q, q ≠ d → dirname q = d → s.get q = none := by
  intro q hq hd
  unfold listdirEmpty at h
  split at h
  · simp only [Except.ok.injEq, List.all_eq_true] at h
    refine Classical.byContradiction fun hn => ?_
    have := h q (by
      rw [Dict.mem_keys]
      cases e : s.get q with
      | none => exact absurd e hn
      | some n => simp)
    simp [hq, hd] at this
  · cases h

theorem rmdir_drop {s t : FS} {p : Str} (h : rmdir s p = .ok t) : Drop s t := by
  unfold rmdir at h
  split at h
  · rename_i e
    split at h
    · rename_i e'
      cases h
      exact .rmdir p e (listdir_true e') (by simp [Dict.get_del]) (sameBut_del s p)
    · cases h
    · cases h
  · cases h

theorem rmdir_call {s t : FS} {p : Str} (h : rmdir s p = .ok t) : Call s t := (rmdir_drop h).call

theorem rename_call {s t : FS} {p q : Str} (hpq : p ≠ q) (h : rename s p q = .ok t) : Call s t := by
  unfold rename at h
  split at h
  · cases h
  · cases h
  · rename_i n hd e
    have hd' : n ≠ .dir := hd
    split at h
    · cases h
    · rename_i hq
      cases h
      refine .rename p q n hd' hpq e hq ?_ (by simp [Dict.get_put]) ?_
      · rw [Dict.get_put, if_neg (fun e => hpq e.symm), Dict.get_del, if_pos rfl]
      · intro k hk
        rw [Dict.get_put, if_neg (fun e => hk (by simp [e])), Dict.get_del, if_neg (fun e => hk (by simp [e]))]

theorem write_calls {s : FS} {p : Str} (c : Str) : ∀ n m, n + m ≤ c.length →
    Calls Call (s.put p (.file (c.take n))) ((List.range m).map fun k => s.put p (.file (c.take (n + 1 + k)))) (s.put p (.file (c.take (n + m)))) := by
  intro n m
  induction m generalizing n with
  | zero => intro _; exact .nil _
  | succ m ih =>
    intro h
    rw [List.range_succ_eq_map, List.map_cons, List.map_map]
    have := ih (n + 1) (by omega)
    refine .cons (.byte p (c.take n) (c[n]'(by omega)) (by simp [Dict.get_put]) ?_ ?_) ?_
    · rw [Dict.get_put, if_pos rfl, Nat.add_zero, List.take_succ_eq_append_getElem (by omega)]
    · intro q hq
      simp only [Dict.get_put]
      rw [if_neg (fun e => hq (by simp [e])), if_neg (fun e => hq (by simp [e]))]
    · rw [show n + (m + 1) = n + 1 + m by omega, Nat.add_zero]
      convert this using 2
      funext k
      simp only [Function.comp, Nat.succ_eq_add_one]
      rw [show n + 1 + (k + 1) = n + 1 + 1 + k by omega]

theorem writeFile_fine (s : FS) (p c : Str) : (writeFile s p c).Fine Call id s := by
  have go : (s.get p = none ∨ ∃ c, s.get p = some (.file c)) →
      Tr.Fine Call (((List.range (c.length + 1)).map (fun k => s.put p (.file (c.take k))), .ok (s.put p (.file c))) : Tr FS) id s := by
    intro h
    refine ⟨s.put p (.file c), ?_, fun b hb => by cases hb; rfl⟩
    rw [List.range_succ_eq_map, List.map_cons, List.map_map]
    refine .cons (.create p h (by simp [Dict.get_put]) (sameBut_put s p _)) ?_
    have := write_calls (s := s) (p := p) c 0 c.length (by omega)
    rw [show c.take (0 + c.length) = c by simp] at this
    convert this using 2
    funext k
    simp only [Function.comp, Nat.succ_eq_add_one]
    rw [show 0 + 1 + k = k + 1 by omega]
  unfold writeFile
  split
  · split
    · exact go (.inl ‹_›)
    · exact go (.inr ⟨_, ‹_›⟩)
    · exact Tr.fine_fail
  · exact Tr.fine_fail

theorem mkdirs_fine : ∀ (ds : List Str) (s : FS), (mkdirs s ds).Fine Call id s
  | [], s => Tr.fine_pure rfl
  | d :: ds, s => by
    unfold mkdirs
    split
    · exact mkdirs_fine ds s
    · exact Tr.fine_fail
    · split
      · refine (Tr.fine_atomic fun t ht => ?_).bind fun b _ => mkdirs_fine ds b
        cases ht
        exact .mkdir d ‹_› (by simp [Dict.get_put]) (sameBut_put s d _)
      · exact Tr.fine_fail

theorem makedirs_fine (s : FS) (d : Str) : (makedirs s d).Fine Call id s := by
  unfold makedirs
  split
  · exact Tr.fine_fail
  · exact mkdirs_fine _ s

theorem checkDir_fine (s : FS) (d : Str) : (checkDir s d).Fine Call id s := by
  unfold checkDir
  split
  · exact Tr.fine_pure rfl
  · exact makedirs_fine s d

theorem clearWay_fine (s : FS) (p : Str) : (clearWay s p).Fine Call id s := by
  unfold clearWay
  split
  · exact Tr.fine_atomic fun t ht => unlink_call ht
  · exact Tr.fine_pure rfl

theorem clearWay_nolink {s t : FS} {p : Str} (h : (clearWay s p).2 = .ok t) : isLink t p = false := by
  unfold clearWay at h
  split at h
  · unfold unlink at h
    split at h <;> simp [Tr.atomic] at h
    · rw [← h]; simp [isLink, Dict.get_del]
    · rw [← h]; simp [isLink, Dict.get_del]
  · rename_i hn
    cases h
    simp at hn
    exact hn.2

theorem dir_of_isDir {s : FS} {p : Str} (h : isDir s p = true) (hl : isLink s p = false) : s.get p = some .dir := by
  unfold isDir stat at h
  unfold isLink at hl
  unfold statN at h
  cases e : s.get p with
  | none => simp [e] at h
  | some n => cases n with
    | file c => simp [e] at h
    | dir => rfl
    | link t => simp [e] at hl

theorem extractEntry_fine (s : FS) (e : Entry) : (extractEntry s e).Fine Call id s := by
  cases e with
  | dir p =>
    simp only [extractEntry]
    split
    · exact Tr.fine_pure rfl
    · exact makedirs_fine s p
  | file p c =>
    simp only [extractEntry]
    exact (checkDir_fine s _).bind fun s1 _ => (clearWay_fine s1 p).bind fun s2 _ => writeFile_fine s2 p c
  | link p t =>
    simp only [extractEntry]
    refine (checkDir_fine s _).bind fun s1 _ => (clearWay_fine s1 p).bind fun s2 h2 => ?_
    refine Tr.Fine.bind (pr := id) ?_ fun s3 _ => ?_
    · split
      · rename_i hd
        refine Tr.fine_atomic fun u hu => ?_
        cases hu
        refine .rmtree p (dir_of_isDir hd (clearWay_nolink h2)) ?_ (fun q hq => ?_) (fun q hq hb => ?_)
        · rw [get_rmtree, if_pos (.inl rfl)]
        · rw [get_rmtree, if_pos (.inr hq)]
        · rw [get_rmtree, if_neg (fun h => h.elim hq hb)]; rfl
      · exact Tr.fine_pure rfl
    · split
      · rename_i h
        simp only [Bool.and_eq_true, Option.isNone_iff_eq_none] at h
        refine Tr.fine_atomic fun u hu => ?_
        cases hu
        exact .symlink p t h.2 (by simp [Dict.get_put]) (sameBut_put s3 p _)
      · exact Tr.fine_fail

theorem extractAll_fine : ∀ (es : List Entry) (s : FS), (extractAll s es).Fine Call id s
  | [], _ => Tr.fine_pure rfl
  | e :: es, s => (extractEntry_fine s e).bind fun b _ => extractAll_fine es b

theorem ifUnlink_fine (s : FS) (p : Str) (b : Bool) : (if b then Tr.atomic (unlink s p) else ([], .ok s) : Tr FS).Fine Call id s := by
  split
  · exact Tr.fine_atomic fun t ht => unlink_call ht
  · exact Tr.fine_pure rfl

theorem backup_fine (s : FS) (p : Str) : (backup s p).Fine Call id s :=
  (ifUnlink_fine s _ _).bind fun _ _ => Tr.fine_atomic fun _ ht => rename_call (Ne.symm (dotOld_ne p)) ht

variable {sha : Str → Str}

theorem backupIf_fine (h : Option Str) (p : Str) (st : FS × List Str) : (backupIf sha h p st).Fine Call Prod.fst st.1 := by
  unfold backupIf
  split
  · exact Tr.fine_pure rfl
  · split
    · exact (backup_fine st.1 p).bind fun b _ => Tr.fine_pure rfl
    · exact Tr.fine_pure rfl

theorem backupNew_fine (dest : Str) : ∀ (l : List FileInfo) (st : FS × List Str), (backupNew sha dest l st).Fine Call Prod.fst st.1
  | [], _ => Tr.fine_pure rfl
  | f :: l, st => by
    unfold backupNew
    simp only
    split
    · exact (backupIf_fine _ _ st).bind fun b _ => backupNew_fine dest l b
    · exact backupNew_fine dest l st

theorem backupUpg_fine (dest : Str) : ∀ (l : List (FileInfo × FileInfo)) (st : FS × List Str), (backupUpg sha dest l st).Fine Call Prod.fst st.1
  | [], _ => Tr.fine_pure rfl
  | (n, o) :: l, st => by
    unfold backupUpg
    split
    · exact Tr.fine_fail
    · split
      · exact (backupIf_fine _ _ st).bind fun b _ => backupUpg_fine dest l b
      · exact backupUpg_fine dest l st

theorem restore_fine : ∀ (ps : List Str) (s : FS), (restore s ps).Fine Call id s
  | [], _ => Tr.fine_pure rfl
  | p :: ps, s => by
    unfold restore
    exact (ifUnlink_fine s _ _).bind fun s1 _ => (Tr.fine_atomic fun _ ht => rename_call (Ne.symm (dotNew_ne p)) ht).bind fun s2 _ =>
      (Tr.fine_atomic fun _ ht => rename_call (dotOld_ne p) ht).bind fun s3 _ => restore_fine ps s3

/-- **C226**: the disks an installation goes through follow each other by single steps, and what it leaves is the last of them. -/
theorem extractInstall_calls (dest : Str) (old : Option (List FileInfo)) (new : List FileInfo) (es : List Entry) (s : FS) :
    ∃ t, Calls Call s (extractInstall sha dest old new es s).1 t ∧ ∀ b, (extractInstall sha dest old new es s).2 = .ok b → b = t := by
  show (extractInstall sha dest old new es s).Fine Call id s
  unfold extractInstall
  refine Tr.Fine.bind (pr := Prod.fst) (s := s) ?_ fun st _ => (extractAll_fine es st.1).bind fun s1 _ => (restore_fine st.2 s1).bind fun s2 _ => ?_
  · cases old with
    | none => exact backupNew_fine dest new (s, [])
    | some old => exact backupUpg_fine dest _ (s, [])
  · cases old with
    | none => exact Tr.fine_pure rfl
    | some old =>
      simp only
      split
      · exact Tr.fine_pure rfl
      · exact Tr.fine_fail

theorem prune_fine : ∀ (n : Nat) (s : FS) (d : Str), (pruneTr n s d).Fine Drop id s
  | 0, _, _ => Tr.fine_fail
  | n + 1, s, d => by
    unfold pruneTr
    split
    · exact Tr.fine_pure rfl
    · split
      · exact Tr.fine_fail
      · exact Tr.fine_pure rfl
      · exact (Tr.fine_atomic fun t ht => rmdir_drop ht).bind fun b _ => prune_fine n b _

variable {α ι : Type} [DecidableEq α]

theorem removeFile_fine (dest : Str) (db : DB.FilesDB Str α ι) (pkg : α) (f : FileInfo) (s : FS) : (removeFileTr sha dest db pkg f s).Fine Drop id s := by
  unfold removeFileTr
  simp only
  split
  · exact Tr.fine_pure rfl
  · split
    · exact Tr.fine_pure rfl
    · split
      · split
        · exact Tr.fine_pure rfl
        · split
          · exact Tr.fine_atomic fun t ht => unlink_drop ht
          · exact Tr.fine_pure rfl
      · split
        · exact (Tr.fine_atomic fun t ht => unlink_drop ht).bind fun b _ => prune_fine _ b _
        · split
          · split
            · exact Tr.fine_fail
            · exact (Tr.fine_atomic fun t ht => rmdir_drop ht).bind fun b _ => prune_fine _ b _
            · exact Tr.fine_pure rfl
          · exact Tr.fine_pure rfl

/-- **C226**: the same of a removal, which only takes single files, links and empty directories away. -/
theorem removeFiles_calls (dest : Str) (db : DB.FilesDB Str α ι) (pkg : α) : ∀ (l : List FileInfo) (s : FS),
    ∃ t, Calls Drop s (removeFilesTr sha dest db pkg l s).1 t ∧ ∀ b, (removeFilesTr sha dest db pkg l s).2 = .ok b → b = t := by
  suffices h : ∀ (l : List FileInfo) (s : FS), (removeFilesTr sha dest db pkg l s).Fine Drop id s from h
  intro l
  induction l with
  | nil => exact fun s => Tr.fine_pure rfl
  | cons f l ih => exact fun s => (removeFile_fine dest db pkg f s).bind fun b _ => ih b

/-- The directory is made, the file is made, its character is written. -/
example : (extractInstall id ['/'] none stL [.file "/b/v".toList ['2']] [(['/'], .dir)]).1.length = 3 ∧
    ∃ t, Calls Call [(['/'], .dir)] (extractInstall id ['/'] none stL [.file "/b/v".toList ['2']] [(['/'], .dir)]).1 t ∧
      ∀ b, (extractInstall id ['/'] none stL [.file "/b/v".toList ['2']] [(['/'], .dir)]).2 = .ok b → b = t :=
  ⟨by decide +kernel, extractInstall_calls _ _ _ _ _⟩

/-- The file goes, then its directory. -/
example : (removeFilesTr id ['/'] ([] : DB.FilesDB Str Nat Unit) 1 stL stFS).1 = [stMid, [(['/'], .dir)]] ∧
    ∃ t, Calls Drop stFS (removeFilesTr id ['/'] ([] : DB.FilesDB Str Nat Unit) 1 stL stFS).1 t ∧
      ∀ b, (removeFilesTr id ['/'] ([] : DB.FilesDB Str Nat Unit) 1 stL stFS).2 = .ok b → b = t :=
  ⟨by decide +kernel, removeFiles_calls _ _ _ _ _⟩

end Pisi.FS
