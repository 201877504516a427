import Verif.Props.Strip
import Verif.Props.Shell
import Verif.Props.ActionsMisc
import Verif.Props.GnuConfig
import Verif.Props.RepoUpdate
import Verif.Props.PkgGraph
import Verif.Props.Packaging
import Verif.Props.PkgName
import Verif.Props.TarSource
import Verif.Props.UnpackSucceeds
import Verif.Props.Glob
import Verif.Props.PackageDB

/-!
# Earlier theorems with names and texts written out

The theorems of other modules speak of names of files and of texts by the names that the model has for them.  Here they are
written out, so that the names themselves are part of the statements.
-/

namespace Pisi.Strip

/-- C137: which files are stripped, in the words of `file`. -/
theorem kind_words (path desc : Str)
    (hp : ∀ a ∈ ["current ar archive".toList, "SB executable".toList, "SB shared object".toList], ¬ a <:+: path) :
    ("current ar archive".toList <:+: desc → kind (fileOutput path desc) = some .archive) ∧
    (¬ "current ar archive".toList <:+: desc → "SB executable".toList <:+: desc → kind (fileOutput path desc) = some .executable) ∧
    (¬ "current ar archive".toList <:+: desc → ¬ "SB executable".toList <:+: desc → "SB shared object".toList <:+: desc →
      kind (fileOutput path desc) = some .shared) ∧
    (¬ "current ar archive".toList <:+: desc → ¬ "SB executable".toList <:+: desc → ¬ "SB shared object".toList <:+: desc →
      kind (fileOutput path desc) = none) := by
  have e1 : "current ar archive".toList = archiveText := by decide
  have e2 : "SB executable".toList = executableText := by decide
  have e3 : "SB shared object".toList = sharedText := by decide
  rw [e1, e2, e3] at *
  exact kind_exact path desc hp

end Pisi.Strip

namespace Pisi.Shell
open Pisi.ShellSpec

/-- The words of the two calls of objcopy. -/
theorem debug_words (f o : Str) (hf : safe f = true) (ho : safe o = true) :
    Runs (render (keepDebug f o)) ["objcopy".toList, "--only-keep-debug".toList, f, o ++ ".debug".toList] ∧
    Runs (render (debugLink o f)) ["objcopy".toList, "--add-gnu-debuglink=".toList ++ (o ++ ".debug".toList), f] := by
  have h := debug_partial f o hf ho
  have e1 : "objcopy".toList = ['o','b','j','c','o','p','y'] := by decide
  have e2 : "--only-keep-debug".toList = ['-','-','o','n','l','y','-','k','e','e','p','-','d','e','b','u','g'] := by decide
  have e3 : ".debug".toList = debugSuffix := by decide
  have e4 : "--add-gnu-debuglink=".toList = addLink := by decide
  rw [e1, e2, e3, e4]
  exact h

end Pisi.Shell

namespace Pisi.Act
open Pisi.FS

/-- C172: the script ends with the group that names the library, and what comes before is a comment. -/
theorem ldscript_words (lib : Str) : ∃ c, ldscript lib = "\n/* GNU ld script\n".toList ++ c ++ "*/\nGROUP ( /lib/".toList ++ lib ++ " )\n".toList ∧
    ¬ "*/".toList <:+: c := by
  have h : ∃ c, ldscriptHead = "\n/* GNU ld script\n".toList ++ c ++ "*/\nGROUP ( /lib/".toList ∧ Pisi.Strip.inside "*/".toList c = false :=
    ⟨(ldscriptHead.drop 18).take (ldscriptHead.length - 18 - 16), by decide +kernel, by decide +kernel⟩
  obtain ⟨c, h, hc⟩ := h
  refine ⟨c, ?_, fun hi => ?_⟩
  · unfold ldscript
    rw [h, List.append_assoc _ lib]
    rfl
  · rw [← Pisi.Strip.inside_iff, hc] at hi
    cases hi

/-- C168: what is left to do when `msgfmt` rejects the text. -/
theorem domo_rejected_words (e : Env) (m : Msgfmt) (fs : FS) (src locale dst t : Str) (hc : Clean src) (hh : src.head? ≠ some '-')
    (ht : stat fs (e.cs src) = some (.file t)) (ho : m.compile t = none) :
    domo e m src locale dst fs = seq (makedirs e (localeDir e locale)) (move e "messages.mo".toList (localeDir e locale ++ dst)) fs := by
  have e1 : "messages.mo".toList = messagesMo := by decide
  rw [e1]
  exact domo_rejected e m fs src locale dst t hc hh ht ho

/-- C168: what the shell gets. -/
theorem msgfmt_called {src : Str} (hc : Clean src) : shWords (squeeze ("msgfmt ".toList ++ src)) = some ["msgfmt".toList, src] := by
  have e1 : "msgfmt ".toList ++ src = wMsgfmt ++ ' ' :: src := by
    have : "msgfmt ".toList = wMsgfmt ++ [' '] := by decide
    rw [this, List.append_assoc]; rfl
  have e2 : "msgfmt".toList = wMsgfmt := by decide
  rw [e1, e2]
  exact msgfmt_words hc

open Classical in
/-- C169, with the names of the files. -/
theorem gnuconfig_words (e : Env) (fs : FS) (cs cg : Str) (ht : Tidy fs) (hl : LinkFree fs) (hR : Rooted fs) (ha : isAbs e.cwd = true)
    (hd : dotdot ∉ comps e.cwd) (hdir : look fs (comps e.cwd) = some .dir)
    (hdep : ∀ r, look fs (comps e.cwd ++ r) ≠ none → r.length ≤ e.limit)
    (hout : ¬ comps e.cwd <+: ["usr".toList, "share".toList, "gnuconfig".toList])
    (hcs : look fs ["usr".toList, "share".toList, "gnuconfig".toList, "config.sub".toList] = some (.file cs))
    (hcg : look fs ["usr".toList, "share".toList, "gnuconfig".toList, "config.guess".toList] = some (.file cg)) :
    ∃ fs', gnuconfigUpdate e fs = (fs', .ok ()) ∧ ∀ d n c, comps e.cwd <+: d → look fs (d ++ [n]) = some (.file c) →
      look fs' (d ++ [n]) = some (.file (if n = "config.sub".toList then cs else if n = "config.guess".toList then cg else c)) := by
  have e1 : "config.sub".toList = configSub := by decide
  have e2 : "config.guess".toList = configGuess := by decide
  have e3 : ["usr".toList, "share".toList, "gnuconfig".toList] = gnuLoc := by decide
  have e4 : ["usr".toList, "share".toList, "gnuconfig".toList, "config.sub".toList] = gnuLoc ++ [configSub] := by decide
  have e5 : ["usr".toList, "share".toList, "gnuconfig".toList, "config.guess".toList] = gnuLoc ++ [configGuess] := by decide
  rw [e3] at hout
  rw [e4] at hcs
  rw [e5] at hcg
  obtain ⟨fs', h1, h2⟩ := gnuconfig_partial e fs cs cg ht hl hR ha hd hdir hdep hout hcs hcg
  refine ⟨fs', h1, fun d n c hdn hlk => ?_⟩
  rw [h2, e1, e2]
  by_cases hn : n = configSub ∨ n = configGuess
  · rw [if_pos]
    · rw [List.getLast?_concat]
      rcases hn with rfl | rfl
      · rw [if_pos rfl, if_pos rfl]
      · rw [if_neg (by decide), if_neg (by decide), if_pos rfl]
    · refine ⟨by rw [List.dropLast_concat]; exact hdn, ?_, c, hlk⟩
      rw [List.getLast?_concat]
      exact hn.imp (congrArg some) (congrArg some)
  · rw [if_neg, hlk, if_neg (fun e => hn (.inl e)), if_neg (fun e => hn (.inr e))]
    rintro ⟨_, h, _⟩
    rw [List.getLast?_concat] at h
    exact hn (h.imp (Option.some.inj) (Option.some.inj))

/-- `ls` of a directory gives the names in it, of anything else what matches. -/
theorem ls_dir (e : Env) (fs : FS) (p : Str) (l : List Str) (hr : resolve fs (e.cs p) = some l) (hd : look fs l = some .dir) (n : Str) :
    n ∈ ls e p fs ↔ n ∈ namesAt fs l := by
  have h1 : isDirC fs (e.cs p) = true := by
    unfold isDirC stat
    rw [hr]
    simp [hd]
  unfold ls
  rw [if_pos h1]
  unfold listdirC
  rw [hr]
  simp [hd]

theorem ls_other (e : Env) (fs : FS) (p : Str) (h : isDirC fs (e.cs p) = false) : ls e p fs = glob fs e.cwd p := by
  unfold ls
  rw [if_neg (by rw [h]; decide)]

end Pisi.Act

namespace Pisi.Repo

/-- What is put next to an index: a compressed one, hashes of both, and signatures. -/
theorem published_names {α : Type} (T : Tools α) (out x : Str) (srv : Dict Str Str) (signing : Bool) :
    (publish T out x signing srv).get (out ++ ".sha1sum".toList) = some (T.sha x) ∧
    (publish T out x signing srv).get (out ++ ".bz2.sha1sum".toList) = some (T.sha (T.bzip x)) ∧
    (publish T out x signing srv).get (out ++ ".bz2".toList) = some (T.bzip x) ∧
    (publish T out x true srv).get (out ++ ".sig".toList) = some (T.sign x) ∧
    (publish T out x true srv).get (out ++ ".bz2.sig".toList) = some (T.sign (T.bzip x)) := by
  have e1 : ".sha1sum".toList = dotSha := by decide
  have e2 : ".bz2.sha1sum".toList = dotBz2 ++ dotSha := by decide
  have e3 : ".bz2".toList = dotBz2 := by decide
  have e4 : ".sig".toList = dotSig := by decide
  have e5 : ".bz2.sig".toList = dotBz2 ++ dotSig := by decide
  rw [e1, e2, e3, e4, e5]
  have ne : ∀ a b : Str, a ≠ b → (out ++ a = out ++ b) = False := fun a b h => by
    simp only [eq_iff_iff, iff_false]
    exact fun e => h (List.append_cancel_left e)
  have ne0 : ∀ b : Str, b ≠ [] → (out = out ++ b) = False := fun b h => by
    simp only [eq_iff_iff, iff_false]
    exact fun e => h (List.append_right_eq_self.1 e.symm)
  have a1 : dotBz2 ++ dotSha ≠ dotSha := by decide
  have a2 : dotBz2 ++ dotSig ≠ dotSha := by decide
  have a3 : dotSig ≠ dotSha := by decide
  have a4 : dotSig ≠ dotBz2 ++ dotSha := by decide
  have a5 : dotBz2 ++ dotSig ≠ dotBz2 ++ dotSha := by decide
  have a6 : dotSig ≠ dotBz2 := by decide
  have a7 : dotBz2 ++ dotSig ≠ dotBz2 := by decide
  have a8 : dotSha ≠ dotBz2 := by decide
  have a9 : dotBz2 ++ dotSha ≠ dotBz2 := by decide
  have a10 : dotBz2 ++ dotSig ≠ dotSig := by decide
  unfold publish
  cases signing <;> simp only [List.append_assoc, Dict.get_put, ne _ _ a1, ne _ _ a2, ne _ _ a3, ne _ _ a4, ne _ _ a5, ne _ _ a6,
    ne _ _ a7, ne _ _ a8, ne _ _ a9, ne _ _ a10, if_true, if_false, Bool.false_eq_true, and_self]

/-- The address is written into the file `uri` of the repository's directory before anything else is done. -/
theorem address_written {α : Type} (T : Tools α) (net : Net) (F uri : Str) (force : Bool) (s : St α) :
    ∃ rest, (readUri T net F uri force s).1 =
      (List.range (uri.length + 1)).map (fun k => { s with disk := s.disk.put "uri".toList (uri.take k) }) ++ rest := by
  have e : "uri".toList = uriFile := by decide
  rw [e]
  exact ⟨_, rfl⟩

end Pisi.Repo

namespace Pisi.Plan

/-- Punctuation is what can be printed and is neither a letter nor a digit. -/
theorem punctuation_iff (c : Char) : c ∈ punctuation ↔ 33 ≤ c.toNat ∧ c.toNat ≤ 126 ∧ c.isAlphanum = false := by
  constructor
  · have h : ∀ c ∈ punctuation, 33 ≤ c.toNat ∧ c.toNat ≤ 126 ∧ c.isAlphanum = false := by decide
    exact h c
  · rintro ⟨h1, h2, h3⟩
    have h : ∀ k : Fin 127, 33 ≤ (Char.ofNat k.1).toNat → (Char.ofNat k.1).isAlphanum = false → Char.ofNat k.1 ∈ punctuation := by
      decide
    have e : Char.ofNat c.toNat = c := Char.ofNat_toNat c
    have := h ⟨c.toNat, by omega⟩
    rw [e] at this
    exact this h1 h3

end Pisi.Plan

namespace Pisi.PkgName

/-- The names of package files. -/
theorem package_file (n v r : Str) : packageName n v r none = n ++ "-".toList ++ v ++ "-".toList ++ r ++ ".pisi".toList ∧
    packageName n v r (some 0) = n ++ "-".toList ++ v ++ "-".toList ++ r ++ ".pisi".toList ∧
    ∀ k, k ≠ 0 → packageName n v r (some k) = n ++ "-".toList ++ v ++ "-".toList ++ r ++ "-".toList ++ Nat.toDigits 10 k ++ ".pisi".toList := by
  have e1 : ".pisi".toList = packageSuffix := by decide
  have e2 : "-".toList = ['-'] := by decide
  rw [e1, e2, (packageName_eq n v r none).2, (packageName_eq n v r (some 0)).2]
  refine ⟨by simp [verPart], by simp [verPart], fun k hk => ?_⟩
  rw [(packageName_eq n v r (some k)).2]
  simp [verPart, hk]

end Pisi.PkgName

namespace Pisi.Tar
open Pisi.Path Pisi.Unpack Pisi.PathSpec

/-- Members of an ordinary package of the format 1.0 are below `install`. -/
theorem zip_names {built : Files} {I : Loc} {p : Str} {m : Member} (hp : segs p ≠ []) (hl : p.getLast? ≠ some '/')
    (h : addZip built I "install".toList p = some m) : segs m.name = "install".toList :: segs p := by
  have e : "install".toList = installName := by decide
  rw [e] at h ⊢
  exact (addZip_spec hp hl h).2.1

/-- And only those are unpacked: what is not below `install` is left out. -/
theorem zip_unpacked {n : Nat} {T : Loc} {ms : List Member} {s : St} {m : Member} (hm : subpath "install".toList m.name = false) :
    unpackDirFlat n "install".toList T (m :: ms) s = unpackDirFlat n "install".toList T ms s := by
  unfold unpackDirFlat
  rw [unpackCond, unpackMember, if_neg (by rw [hm]; decide)]
  rfl

end Pisi.Tar

namespace Pisi.Pack
open Pisi.FS

/-- C89, with the names. -/
theorem static_words {sha : Str → Str} {fs : FS} {walk : Str → List Triple} {glob : Str → List Str}
    {o : Opts} {pkg : Pkg} {others : List Pkg} {inst : Str} (hr : BuildRoot fs inst) (hw : Walks fs walk) (ha : AbsPaths pkg)
    (hg : GlobBelow fs glob inst pkg) {d : Dict Str FileInfo} (hd : genFiles sha fs walk glob o pkg others inst = .ok d) (r : Str)
    (h : d.has r = true) (ho : o.createStatic = true) (hs : ".a".toList <:+ r) (rest : Str)
    (hi : fs.get (inst ++ '/' :: r) = some (.file ("!<arch>\n".toList ++ rest))) : "-static".toList <:+ pkg.name := by
  have e : "-static".toList = staticSuffix := by decide
  have e2 : "!<arch>\n".toList ++ rest = ['!', '<', 'a', 'r', 'c', 'h', '>'] ++ '\n' :: rest := by
    have : "!<arch>\n".toList = ['!', '<', 'a', 'r', 'c', 'h', '>', '\n'] := by decide
    rw [this]; rfl
  have e3 : ".a".toList = arSuffix := by decide
  rw [e]
  rw [e2] at hi
  rw [e3] at hs
  exact static_apart hr hw ha hg hd r h ho (hs.trans ⟨inst ++ ['/'], by simp⟩) rest hi

end Pisi.Pack

namespace Pisi.Unpack

/-- A dot on the way means nothing. -/
theorem resolve_dot (fs : Files) (n : Nat) (cur cs : List Str) : resolve fs (n + 1) cur (".".toList :: cs) = resolve fs n cur cs := by
  have e : ".".toList = dot := by decide
  rw [e, resolve, if_pos rfl]

/-- Directories are made in directories only. -/
theorem mkdir_parent (n : Nat) (p : List Str) (mode : Nat) (s : St) (h : (mkdir n p mode s).2 = true) :
    ∃ d c, (mkdir n p mode s).1 = s.set (d ++ [c]) (some (.dir mode)) ∧ s.fs (d ++ [c]) = none ∧ p.getLast? = some c ∧ c ≠ ".".toList ∧ c ≠ "..".toList ∧
      (d = [] ∨ ∃ m, s.fs d = some (.dir m)) := by
  unfold mkdir at h ⊢
  cases hp : place s.fs n p with
  | none => rw [hp] at h; cases h
  | some l =>
    rw [hp] at h
    dsimp only at h ⊢
    by_cases hs : (s.fs l).isSome = true
    · rw [if_pos hs] at h; cases h
    · rw [if_neg hs]
      unfold place at hp
      cases hg : p.getLast? with
      | none => rw [hg] at hp; cases hp
      | some c =>
        rw [hg] at hp
        dsimp only at hp
        by_cases hc : c = dot ∨ c = dotdot
        · rw [if_pos hc] at hp; cases hp
        · rw [if_neg hc] at hp
          cases hr : resolve s.fs n [] p.dropLast with
          | none => rw [hr] at hp; cases hp
          | some d =>
            rw [hr] at hp
            dsimp only at hp
            by_cases hd : dirAt s.fs d = true
            · rw [if_pos hd] at hp
              cases hp
              refine ⟨d, c, rfl, by simpa using hs, rfl, fun e => hc (.inl (e.trans (by decide))), fun e => hc (.inr (e.trans (by decide))), ?_⟩
              unfold dirAt at hd
              by_cases h0 : d = []
              · exact .inl h0
              · rw [if_neg h0] at hd
                right
                cases hf : s.fs d with
                | none => rw [hf] at hd; cases hd
                | some x => cases x with
                  | dir m => exact ⟨m, rfl⟩
                  | file a b => rw [hf] at hd; cases hd
                  | link t => rw [hf] at hd; cases hd
            · rw [if_neg hd] at hp; cases hp

end Pisi.Unpack

namespace Pisi.DB
variable {α ρ : Type} [DecidableEq α]

/-- C27: opening the list of repositories again changes nothing, and what is opened for the first time is an empty list. -/
theorem reopen_keeps (ops : List (SysOp α ρ)) : (SysOp.run ops).repos.init = (SysOp.run ops).repos := by
  obtain ⟨l, h⟩ := sys_run ops
  unfold RepoDB.init
  rw [h.repos.order]

theorem open_first : (RepoDB.init ⟨[], none⟩ : RepoDB ρ).list = .ok [] := rfl

end Pisi.DB
