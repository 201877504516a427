import Verif.Spec.FetchMix
import Verif.Props.Fetch

/-! # C231: a downloaded file is a version that a source had -/
namespace Pisi.Fetch
open Pisi.FS

variable {V : Str → Prop}

theorem from_prefix {d c : Str} (h : d <+: c) (hc : From V c) : From V d := by
  intro i ch hi
  obtain ⟨r, rfl⟩ := h
  refine hc i ch ?_
  have : i < d.length := by
    rcases Nat.lt_or_ge i d.length with h | h
    · exact h
    · rw [List.getElem?_eq_none h] at hi; cases hi
  rw [List.getElem?_append_left this]; exact hi

theorem from_nil : From V [] := by intro i ch h; simp at h

theorem from_version {c : Str} (h : V c) : From V c := fun _ _ hi => ⟨c, h, hi⟩

theorem joined_version {c : Str} (h : V c) : Joined V c := ⟨[], c, from_nil, h, by simp⟩

theorem from_joined {d : Str} (h : Joined V d) : From V d := by
  obtain ⟨b, c, hb, hc, rfl⟩ := h
  intro i ch hi
  by_cases hlt : i < b.length
  · rw [List.getElem?_append_left hlt] at hi; exact hb i ch hi
  · rw [List.getElem?_append_right (by omega), List.getElem?_drop, Nat.add_sub_cancel' (by omega)] at hi
    exact ⟨c, hc, hi⟩

/-- A server that has `c` continues `d` with the end of `c`. -/
theorem grab_join (sv : Server) (fs : FS) (p d c : Str) (hs : Honest sv c) :
    (grab sv fs p d).Sat (Only fs p (d ++ c.drop d.length))
      (fun s => Only fs p (d ++ c.drop d.length) s ∧ s.get p = some (.file (d ++ c.drop d.length))) := by
  have h := grab_sat { probe := sv.probe, serve := fun n => if n = d.length then sv.serve n else none } fs p d
    (d ++ c.drop d.length) (by
      intro n data done e
      simp only at e
      split at e
      · rename_i hn; subst hn
        obtain ⟨h1, h2⟩ := hs _ _ _ e
        rw [List.drop_left]; exact ⟨h1, h2⟩
      · cases e) (List.prefix_append _ _)
  unfold grab at h ⊢
  simpa using h

theorem fetchRemote_join (sv : Server) (fs : FS) (p c : Str) (hc : V c) (hs : Honest sv c) (h0 : PartV fs p V) :
    ∃ c', Joined V c' ∧ (fetchRemote sv fs p).Sat (Only fs p c') (fun s => Only fs p c' s ∧ s.get p = some (.file c')) := by
  have again : (Tr.bind (Tr.atomic (unlink fs p)) (fun fs => grab sv fs p [])).Sat (Only fs p c)
      (fun s => Only fs p c s ∧ s.get p = some (.file c)) := by
    refine Tr.Sat.bind (unlink_sat fs p c) fun s hk => ?_
    exact Tr.Sat.mono (grab_sat sv s p [] c hs (List.nil_prefix)) (fun t ht => only_trans hk.1 ht)
      (fun t ht => ⟨only_trans hk.1 ht.1, ht.2⟩)
  unfold fetchRemote
  rcases h0 with h0 | ⟨d, hd, h0⟩
  · rw [stat_none h0]; exact ⟨c, joined_version hc, grab_sat sv fs p [] c hs (List.nil_prefix)⟩
  · rw [stat_file h0]
    simp only []
    cases sv.probe with
    | other => exact ⟨c, joined_version hc, Tr.sat_fail⟩
    | urlError => exact ⟨c, joined_version hc, again⟩
    | answers b => cases b with
      | false => exact ⟨c, joined_version hc, again⟩
      | true => exact ⟨_, ⟨d, c, hd, hc, rfl⟩, grab_join sv fs p d c hs⟩

/-- The invariant of a download from sources with versions of the file. -/
structure InvV (conf : Option (List Str)) (destdir u : Str) (V : Str → Prop) (old : Option Node) (s : FS) : Prop where
  part : PartV s (part (target destdir u)) V
  dest : s.get (target destdir u) = old ∨ ∃ c, Joined V c ∧ c ≠ [] ∧ s.get (target destdir u) = some (.file c)
  loc : ∀ v src, Leads conf u v → kind v = .loc src → src ≠ target destdir u ∧ src ≠ Fetch.part (target destdir u) ∧
    ∃ c, V c ∧ s.get src = some (.file c)

theorem invV_placed {conf : Option (List Str)} {destdir u c : Str} {old : Option Node} {s t : FS}
    (h : InvV conf destdir u V old s) (hc : Joined V c) (hp : Placed s (part (target destdir u)) (target destdir u) c t) :
    InvV conf destdir u V old t := by
  refine ⟨?_, ?_, fun v src hl hk => ?_⟩
  · rcases hp.1 with e | ⟨d, hd, e⟩
    · exact Or.inl e
    · exact Or.inr ⟨d, from_prefix hd (from_joined hc), e⟩
  · rcases hp.2.1 with e | e
    · rw [e]; exact h.dest
    · exact Or.inr ⟨c, hc, e.2, e.1⟩
  · obtain ⟨h1, h2, d, h3, h4⟩ := h.loc v src hl hk
    exact ⟨h1, h2, d, h3, by rw [hp.2.2 src h2 h1]; exact h4⟩

theorem checkDir_invV {conf : Option (List Str)} {destdir u : Str} {old : Option Node} {s : FS}
    (h : InvV conf destdir u V old s) : (checkDir s destdir).Sat (InvV conf destdir u V old) (InvV conf destdir u V old) := by
  have k1 := checkDir_keeps' s destdir (target destdir u) (target_length _ _)
  have k2 := checkDir_keeps' s destdir (part (target destdir u)) (part_length _ _)
  have k3 : ∀ k, s.get k ≠ none → (checkDir s destdir).Keeps s k := fun k => checkDir_keeps s destdir k
  have mk : ∀ t, t.get (target destdir u) = s.get (target destdir u) →
      t.get (part (target destdir u)) = s.get (part (target destdir u)) →
      (∀ k, s.get k ≠ none → t.get k = s.get k) → InvV conf destdir u V old t := by
    intro t e1 e2 e3
    refine ⟨?_, by rw [e1]; exact h.dest, fun v src hl hk => ?_⟩
    · unfold PartV; rw [e2]; exact h.part
    · obtain ⟨h1, h2, d, h3, h4⟩ := h.loc v src hl hk
      exact ⟨h1, h2, d, h3, by rw [e3 src (by rw [h4]; simp)]; exact h4⟩
  exact ⟨fun t ht => mk t (k1.1 t ht) (k2.1 t ht) (fun k hk => (k3 k hk).1 t ht),
    fun t ht => mk t (k1.2 t ht) (k2.2 t ht) (fun k hk => (k3 k hk).2 t ht)⟩

/-- The state after the file has been put in place. -/
def DoneV (p dest : Str) (V : Str → Prop) (s : FS) : Prop := ∃ c, Joined V c ∧ Done p dest c s

theorem fetch_satV (net : Net) (conf : Option (List Str)) (destdir u : Str) (old : Option Node)
    (hr : ∀ v, Leads conf u v → kind v = .remote → ∃ c, V c ∧ Honest (net v) c) : ∀ (n : Nat) (s : FS) (v : Str),
    Leads conf u v → InvV conf destdir u V old s → (fetch net conf destdir n s v).Sat (InvV conf destdir u V old)
      (fun t => InvV conf destdir u V old t ∧ DoneV (part (target destdir u)) (target destdir u) V t) := by
  intro n
  induction n with
  | zero => intro s v _ _; exact Tr.sat_fail
  | succ n ih =>
    intro s v hl hi
    unfold fetch
    refine Tr.Sat.bind (checkDir_invV hi) fun s hi => ?_
    by_cases hf : filename v = []
    · rw [if_pos hf]; exact Tr.sat_fail
    · rw [if_neg hf]
      have ht : target destdir v = target destdir u := by
        rcases leads_filename hl with e | e
        · unfold target; rw [e]
        · exact absurd e hf
      have hne : target destdir u ≠ part (target destdir u) := (part_ne _).symm
      rw [ht]
      cases hk : kind v with
      | mirror name archive =>
        simp only []
        unfold fetchMirror
        cases hg : getMirrors conf name with
        | error e => exact Tr.sat_fail
        | ok o => cases o with
          | none => exact Tr.sat_fail
          | some ms => cases ms with
            | nil => exact Tr.sat_fail
            | cons m ms =>
              simp only []
              refine mirrorLoop_sat _ s hi fun t w hw hit => ?_
              obtain ⟨m', hm', rfl⟩ := List.mem_map.mp hw
              exact ih t _ (.mirror v name archive _ m' hl hk hg hm') hit
      | loc src =>
        simp only []
        obtain ⟨h1, h2, c, hc, h3⟩ := hi.loc v src hl hk
        have hj := joined_version hc
        exact Tr.Sat.mono (get_file (fun s => fetchLocal s src (part (target destdir u))) s _ _ c hne
          (fetchLocal_sat s src _ c h2 h3)) (fun t h => invV_placed hi hj h) (fun t h => ⟨invV_placed hi hj h.1, c, hj, h.2⟩)
      | remote =>
        simp only []
        obtain ⟨c, hc, hs⟩ := hr v hl hk
        obtain ⟨c', hj, hsat⟩ := fetchRemote_join (net v) s (part (target destdir u)) c hc hs hi.part
        exact Tr.Sat.mono (get_file (fun s => fetchRemote (net v) s (part (target destdir u))) s _ _ c' hne hsat)
          (fun t h => invV_placed hi hj h) (fun t h => ⟨invV_placed hi hj h.1, c', hj, h.2⟩)

/-- C231: a download from sources each of which has one of the versions `V`: in every state the destination is as before or
consists of a part put together from versions and the end of one; after a regular end it does. -/
theorem download_joined (net : Net) (conf : Option (List Str)) (destdir u : Str) (fs : FS) (n : Nat)
    (hs : SourcesV net conf fs destdir u V) (hp : PartV fs (part (target destdir u)) V) :
    (∀ s ∈ (fetch net conf destdir n fs u).1, PartV s (part (target destdir u)) V ∧
      (s.get (target destdir u) = fs.get (target destdir u) ∨
        ∃ c, Joined V c ∧ c ≠ [] ∧ s.get (target destdir u) = some (.file c))) ∧
    ∀ s, (fetch net conf destdir n fs u).2 = .ok s →
      ∃ c, Joined V c ∧ c ≠ [] ∧ s.get (target destdir u) = some (.file c) ∧ s.get (part (target destdir u)) = none := by
  have := fetch_satV net conf destdir u (fs.get (target destdir u)) hs.remote n fs u .refl ⟨hp, Or.inl rfl, hs.loc⟩
  refine ⟨fun s h => ⟨(this.1 s h).part, (this.1 s h).dest⟩, fun s h => ?_⟩
  obtain ⟨c, hj, h1, h2, h3⟩ := (this.2 s h).2
  exact ⟨c, hj, h2, h1, h3⟩

/-- C231: any number of downloads, with any changes on the servers in between, each cut off anywhere: the destination is as it
was, or every character in it is one that a version had at that place and its end is the end of a version. -/
theorem downloads_joined (destdir fn : Str) (fs s : FS) (hp : PartV fs (part (destdir ++ '/' :: fn)) V)
    (h : Relation.ReflTransGen (AttemptV destdir fn V) fs s) :
    PartV s (part (destdir ++ '/' :: fn)) V ∧
    (s.get (destdir ++ '/' :: fn) = fs.get (destdir ++ '/' :: fn) ∨
      ∃ c, Joined V c ∧ c ≠ [] ∧ s.get (destdir ++ '/' :: fn) = some (.file c)) := by
  induction h with
  | refl => exact ⟨hp, Or.inl rfl⟩
  | tail _ ha ih =>
    obtain ⟨net, conf, u, n, s, rfl, hs, hm⟩ := ha
    obtain ⟨h1, h2⟩ := (download_joined net conf destdir u _ n hs ih.1).1 _ hm
    refine ⟨h1, ?_⟩
    rcases h2 with e | e
    · rw [show destdir ++ '/' :: filename u = target destdir u from rfl, e]; exact ih.2
    · exact Or.inr e

/-- C231: versions of which one is always the beginning of the other. -/
def Growing (V : Str → Prop) : Prop := ∀ c c', V c → V c' → c <+: c' ∨ c' <+: c

theorem from_growing {d : Str} (hg : Growing V) (hd : From V d) (hne : d ≠ []) : ∃ c, V c ∧ d <+: c := by
  have hl : d.length ≠ 0 := by simpa using hne
  have hlast : d[d.length - 1]? = some (d[d.length - 1]'(by omega)) := List.getElem?_eq_getElem (by omega)
  obtain ⟨c, hc, hcl⟩ := hd _ _ hlast
  refine ⟨c, hc, ?_⟩
  have hlen : d.length ≤ c.length := by
    rcases Nat.lt_or_ge (d.length - 1) c.length with h | h
    · omega
    · rw [List.getElem?_eq_none h] at hcl; cases hcl
  rw [List.prefix_iff_eq_take]
  refine List.ext_getElem? fun i => ?_
  by_cases hi : i < d.length
  · rw [List.getElem?_take_of_lt hi, List.getElem?_eq_getElem hi]
    obtain ⟨c', hc', h'⟩ := hd i _ (List.getElem?_eq_getElem hi)
    rcases hg c c' hc hc' with ⟨r, rfl⟩ | ⟨r, rfl⟩
    · rw [← h', List.getElem?_append_left (by omega)]
    · have : i < c'.length := by
        rcases Nat.lt_or_ge i c'.length with h | h
        · exact h
        · rw [List.getElem?_eq_none h] at h'; cases h'
      rw [List.getElem?_append_left this, h']
  · rw [List.getElem?_eq_none (by omega), List.getElem?_eq_none (by rw [List.length_take]; omega)]

theorem joined_growing {d : Str} (hg : Growing V) (hd : Joined V d) : ∃ c, V c ∧ d <+: c := by
  by_cases hne : d = []
  · obtain ⟨_, c, _, hc, _⟩ := hd
    exact ⟨c, hc, by rw [hne]; exact List.nil_prefix⟩
  · exact from_growing hg (from_joined hd) hne

/-- For one version the statement is that of C36. -/
theorem joined_one {c d : Str} (h : Joined (· = c) d) : d = c := by
  obtain ⟨b, c', hb, rfl, rfl⟩ := h
  have hg : Growing (· = c') := by rintro a a' rfl rfl; exact Or.inl (List.prefix_refl _)
  by_cases hne : b = []
  · subst hne; simp
  · obtain ⟨_, rfl, r, rfl⟩ := from_growing hg hb hne
    rw [List.drop_left]

/-- C231, partial: when a source whose version is `c` is asked without a partial file lying there, and there is no other source,
the file is `c`, whatever other versions there were. -/
theorem fresh_version_partial (net : Net) (conf : Option (List Str)) (destdir u c : Str) (fs : FS) (n : Nat)
    (hk : kind u = .remote) (hs : Honest (net u) c) (hp : fs.get (part (target destdir u)) = none) (s : FS)
    (h : (fetch net conf destdir n fs u).2 = .ok s) : s.get (target destdir u) = some (.file c) := by
  have hl : ∀ v, Leads conf u v → v = u := by
    intro v hv
    induction hv with
    | refl => rfl
    | mirror v name archive ms m _ hkv _ _ ih => rw [ih, hk] at hkv; cases hkv
  have hso : SourcesV net conf fs destdir u (· = c) := by
    refine ⟨fun v hv _ => ?_, fun v src hv hkv => ?_⟩
    · rw [hl v hv]; exact ⟨c, rfl, hs⟩
    · rw [hl v hv, hk] at hkv; cases hkv
  obtain ⟨d, hd, _, h1, _⟩ := (download_joined net conf destdir u fs n hso (Or.inl hp)).2 s h
  rw [joined_one hd] at h1; exact h1

/-- C231, partial: the result of a regular end, for versions that only grow, is the beginning of a version. -/
theorem growing_version_partial (net : Net) (conf : Option (List Str)) (destdir u : Str) (fs : FS) (n : Nat)
    (hg : Growing V) (hs : SourcesV net conf fs destdir u V) (hp : PartV fs (part (target destdir u)) V) (s : FS)
    (h : (fetch net conf destdir n fs u).2 = .ok s) :
    ∃ c d, V c ∧ d <+: c ∧ d ≠ [] ∧ s.get (target destdir u) = some (.file d) := by
  obtain ⟨d, hd, hne, h1, _⟩ := (download_joined net conf destdir u fs n hs hp).2 s h
  obtain ⟨c, hc, hpre⟩ := joined_growing hg hd
  exact ⟨c, d, hc, hpre, hne, h1⟩

/-- The full statement: what was put at the destination is one of the versions. -/
def VersionsFull : Prop := ∀ (V : Str → Prop) (destdir fn : Str) (fs s : FS), fs.get (part (destdir ++ '/' :: fn)) = none →
  fs.get (destdir ++ '/' :: fn) = none → Relation.ReflTransGen (AttemptV destdir fn V) fs s →
  ∀ d, s.get (destdir ++ '/' :: fn) = some (.file d) → V d

/-- A server that breaks off after the first character of `c`. -/
def breaksOff (c : Str) : Server := { probe := .answers true, serve := fun n => some ((c.drop n).take 1, false) }

theorem breaksOff_honest (c : Str) : Honest (breaksOff c) c := by
  intro n data done e
  simp only [breaksOff, Option.some.injEq, Prod.mk.injEq] at e
  obtain ⟨rfl, rfl⟩ := e
  exact ⟨List.take_prefix _ _, fun h => by cases h⟩

theorem only_remote {net : Net} {fs : FS} {destdir u c : Str} (hk : kind u = .remote) (hs : Honest (net u) c) (hc : V c) :
    SourcesV net none fs destdir u V := by
  have hl : ∀ v, Leads none u v → v = u := by
    intro v hv
    induction hv with
    | refl => rfl
    | mirror v name archive ms m _ hkv _ _ ih => rw [ih, hk] at hkv; cases hkv
  refine ⟨fun v hv _ => ?_, fun v src hv hkv => ?_⟩
  · rw [hl v hv]; exact ⟨c, hc, hs⟩
  · rw [hl v hv, hk] at hkv; cases hkv

/-- An interrupted download of `ab`; then the file on the server becomes `xyz`; the next download gives `ayz`. -/
theorem versions_refuted : ¬ VersionsFull := by
  intro h
  have h1 : AttemptV ['/', 'd'] ['x'] (fun c => c = "ab".toList ∨ c = "xyz".toList) [(['/', 'd'], .dir)]
      [("/d/x.part".toList, .file ['a']), (['/', 'd'], .dir)] :=
    .mk (fun _ => breaksOff "ab".toList) none "h:/x".toList 1 _ (by decide)
      (only_remote (c := "ab".toList) (by decide) (breaksOff_honest _) (Or.inl rfl)) (by decide)
  have h2 : AttemptV ['/', 'd'] ['x'] (fun c => c = "ab".toList ∨ c = "xyz".toList)
      [("/d/x.part".toList, .file ['a']), (['/', 'd'], .dir)] [("/d/x".toList, .file "ayz".toList), (['/', 'd'], .dir)] :=
    .mk (fun _ => serverOf "xyz".toList) none "h:/x".toList 1 _ (by decide)
      (only_remote (c := "xyz".toList) (by decide) (reliable_honest (serverOf_reliable _)) (Or.inr rfl)) (by decide)
  have := h _ _ _ _ _ (by decide) (by decide) (.tail (.tail .refl h1) h2) "ayz".toList (by decide)
  revert this
  decide

/-- Mirrors that have different versions do the same within one download. -/
theorem mirrors_mixed : ∃ s, (fetch (fun v => if v = "h:/1/x".toList then breaksOff "ab".toList else serverOf "xyz".toList)
      (some ["m h:/1/".toList, "m h:/2/".toList]) ['/', 'd'] 2 [(['/', 'd'], .dir)] "mirrors://m/x".toList).2 = .ok s ∧
    s.get "/d/x".toList = some (.file "ayz".toList) := by
  refine ⟨[("/d/x".toList, .file "ayz".toList), (['/', 'd'], .dir)], by rfl, by decide⟩

end Pisi.Fetch
