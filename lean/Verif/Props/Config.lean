import Verif.Props.Uri
import Verif.Spec.Config
import Verif.Props.Path
import Verif.Lemmas.ListAux

/-!
# Properties of the configuration and of constants
-/
namespace Pisi.Config
open Pisi.Path Pisi.PathSpec

/-! ## C49: lookups in a section -/

theorem search_first (l : List (Str × Str)) (key v : Str) (h : FirstFor l key v) : searchItems key l = some (conv v) := by
  obtain ⟨pre, post, rfl, hp⟩ := h
  induction pre with
  | nil => simp [searchItems]
  | cons p pre ih =>
    have := hp p (by simp)
    simp only [List.cons_append, searchItems, if_neg this]
    exact ih (fun q hq => hp q (by simp [hq]))

theorem search_none (l : List (Str × Str)) (key : Str) (h : ∀ v, (key, v) ∉ l) : searchItems key l = none := by
  induction l with
  | nil => rfl
  | cons p l ih =>
    obtain ⟨k, v⟩ := p
    have hk : k ≠ key := fun e => h v (by simp [e])
    simp only [searchItems, if_neg hk]
    exact ih (fun w hw => h w (by simp [hw]))

/-- The value of the file: its first value, with "True" and "False" read as booleans. -/
theorem lookup_file (env : Str → Option Str) (s : Sec) (l : List (Str × Str)) (key v : Str) (h : FirstFor l key v) :
    (v = "True".toList → getItem env s l key = .bool true) ∧ (v = "False".toList → getItem env s l key = .bool false) ∧
      (v ≠ "True".toList → v ≠ "False".toList → getItem env s l key = .str v) := by
  unfold getItem
  rw [search_first l key v h]
  refine ⟨?_, ?_, ?_⟩
  · rintro rfl; rfl
  · rintro rfl; rfl
  · intro h1 h2
    show conv v = _
    unfold conv
    rw [if_neg h1, if_neg h2]

/-- Without a value in the file the built-in default is returned. -/
theorem lookup_default (env : Str → Option Str) (s : Sec) (l : List (Str × Str)) (key : Str) (v : Val)
    (h : ∀ w, (key, w) ∉ l) (hd : (key, v) ∈ defaults env s) : getItem env s l key = v := by
  unfold getItem
  rw [search_none l key h]
  have hn : ((defaults env s).map (·.1)).Nodup := by
    cases s <;> simp only [defaults, List.map_cons, List.map_nil] <;> decide
  have : defaultOf env s key = some v := by
    unfold defaultOf
    generalize defaults env s = ds at hn hd
    have : ds.find? (fun p => p.1 = key) = some (key, v) := by
      induction ds with
      | nil => simp at hd
      | cons p ds ih =>
        simp only [List.map_cons, List.nodup_cons] at hn
        by_cases hp : p.1 = key
        · rw [List.find?_cons_of_pos (by simpa using hp)]
          rcases List.mem_cons.1 hd with rfl | hd
          · rfl
          · exact absurd (List.mem_map.2 ⟨_, hd, hp.symm⟩) hn.1
        · rw [List.find?_cons_of_neg (by simpa using hp)]
          rcases List.mem_cons.1 hd with rfl | hd
          · exact absurd rfl hp
          · exact ih hn.2 hd
    rw [this]
  rw [this]

/-- Without a value in the file and without a default the empty string is returned. -/
theorem lookup_empty (env : Str → Option Str) (s : Sec) (l : List (Str × Str)) (key : Str)
    (h : ∀ w, (key, w) ∉ l) (hd : ∀ v, (key, v) ∉ defaults env s) (hc : key ∉ classAttrs) :
    getItem env s l key = .str [] := by
  unfold getItem
  rw [search_none l key h]
  have : defaultOf env s key = none := by
    unfold defaultOf
    cases hf : (defaults env s).find? (fun p => p.1 = key) with
    | none => simp [hc]
    | some p =>
      have h1 := List.find?_some hf
      have h2 := List.mem_of_find?_eq_some hf
      simp only [decide_eq_true_eq] at h1
      obtain ⟨k, v⟩ := p
      subst h1
      exact absurd h2 (hd v)
  rw [this]

/-- Attribute access agrees with it except for the attributes of the object itself. -/
theorem lookup_attr (env : Str → Option Str) (s : Sec) (l : List (Str × Str)) (key : Str) (h : key ∉ ownAttrs) :
    getAttr env s l key = getItem env s l key := if_neg h

example : FirstFor [("jobs".toList, "-j4".toList), ("x".toList, "True".toList), ("x".toList, "False".toList)]
    "x".toList "True".toList := ⟨[("jobs".toList, "-j4".toList)], _, rfl, by simp⟩

example : getItem (fun _ => none) .build [("jobs".toList, "-j4".toList)] "jobs".toList = .str "-j4".toList ∧
    getItem (fun _ => none) .build [("jobs".toList, "-j4".toList)] "buildno".toList = .bool false ∧
    getItem (fun _ => none) .build [("jobs".toList, "-j4".toList)] "nokey".toList = .str [] := by decide

/-! ## C73: settings take effect -/

theorem optionOf_iff (f : File) (name : Str) (l : List (Str × Str)) : OptionOf f name l ↔ l = blockOpts f name := by
  constructor
  · intro h
    induction h with
    | nil => rfl
    | hit name os f l _ ih => simp [blockOpts, ih]
    | miss name n os f l hn _ ih => simp [blockOpts, ih, hn]
  · rintro rfl
    induction f with
    | nil => exact .nil _
    | cons b f ih =>
      obtain ⟨n, os⟩ := b
      by_cases hn : n = name
      · subst hn
        have : blockOpts ((n, os) :: f) n = os ++ blockOpts f n := by simp [blockOpts]
        rw [this]; exact .hit _ _ _ _ ih
      · have : blockOpts ((n, os) :: f) name = blockOpts f name := by simp [blockOpts, hn]
        rw [this]; exact .miss _ _ _ _ _ hn ih

/-- The value that the folded options have for a key. -/
theorem fold_search (l : List (Str × Str)) (key : Str) : ∀ d : List (Str × Str),
    (∀ v, LastFor l key v → searchItems key (l.foldl setOpt d) = some (conv v)) ∧
      ((∀ p ∈ l, lower p.1 ≠ key) → searchItems key (l.foldl setOpt d) = searchItems key d) := by
  have hfilter : ∀ (d : List (Str × Str)) (k : Str), k ≠ key →
      searchItems key (d.filter (fun q => q.1 ≠ k)) = searchItems key d := by
    intro d k hk
    induction d with
    | nil => rfl
    | cons q d ih =>
      obtain ⟨a, b⟩ := q
      by_cases ha : a = k
      · subst ha
        rw [List.filter_cons_of_neg (by simp), ih]
        simp [searchItems, hk]
      · rw [List.filter_cons_of_pos (by simpa using ha)]
        simp only [searchItems, ih]
  have hstep : ∀ (d : List (Str × Str)) (p : Str × Str), searchItems key (setOpt d p) =
      if lower p.1 = key then some (conv p.2) else searchItems key d := by
    intro d p
    unfold setOpt
    simp only [searchItems]
    by_cases hp : lower p.1 = key
    · rw [if_pos hp, if_pos hp]
    · rw [if_neg hp, if_neg hp, hfilter d _ hp]
  have hnone : ∀ (l : List (Str × Str)), (∀ p ∈ l, lower p.1 ≠ key) → ∀ d,
      searchItems key (l.foldl setOpt d) = searchItems key d := by
    intro l
    induction l with
    | nil => intro _ d; rfl
    | cons p l ih =>
      intro h d
      rw [List.foldl_cons, ih (fun q hq => h q (by simp [hq])), hstep, if_neg (h p (by simp))]
  intro d
  refine ⟨?_, fun h => hnone l h d⟩
  rintro v ⟨pre, w, post, rfl, hw, hpost⟩
  rw [List.foldl_append, List.foldl_cons, hnone post hpost, hstep, if_pos hw]

theorem search_filter (l : List (Str × Str)) (key k : Str) (hk : k ≠ key) :
    searchItems key (l.filter (fun q => q.1 ≠ k)) = searchItems key l := by
  induction l with
  | nil => rfl
  | cons q d ih =>
    obtain ⟨a, b⟩ := q
    by_cases ha : a = k
    · subst ha
      rw [List.filter_cons_of_neg (by simp), ih]
      simp [searchItems, hk]
    · rw [List.filter_cons_of_pos (by simpa using ha)]
      simp only [searchItems, ih]

/-- Full statement: an option of the file, as spelled there, has the value that the file gives it. -/
def SettingFull : Prop := ∀ (env : Str → Option Str) (f : File) (s : Sec) (w v : Str),
  Sets f s.name (lower w) v → value env f s w = conv v

/-- It holds for names in lower case that are not attributes of the section object. -/
theorem setting_partial (env : Str → Option Str) (f : File) (s : Sec) (w v : Str) (hw : lower w = w)
    (ho : w ∉ ownAttrs) (hn : w ≠ "__name__".toList) (h : Sets f s.name (lower w) v) : value env f s w = conv v := by
  rw [hw] at h
  obtain ⟨⟨os, hos⟩, d, l, hd, hl, hlast⟩ := h
  rw [optionOf_iff] at hd hl
  subst hd hl
  unfold value getAttr getItem items
  rw [if_neg ho, if_pos (List.any_eq_true.2 ⟨_, hos, by simp⟩), search_filter _ _ _ (Ne.symm hn),
    (fold_search _ w []).1 v hlast]

/-- What the file does not set has its default. -/
theorem unset_default (env : Str → Option Str) (f : File) (s : Sec) (w : Str) (v : Val)
    (h : ∀ u, ¬ Sets f s.name w u) (hd : (w, v) ∈ defaults env s) : value env f s w = v := by
  have ho : w ∉ ownAttrs := by
    have hw : w ∈ (defaults env s).map (·.1) := List.mem_map.2 ⟨_, hd, rfl⟩
    have key : ∀ u ∈ (defaults env s).map (·.1), u ∉ ownAttrs := by
      cases s <;> simp only [defaults, List.map_cons, List.map_nil] <;> decide
    exact key w hw
  unfold value
  rw [lookup_attr _ _ _ _ ho]
  refine lookup_default env s _ w v ?_ hd
  intro u hu
  unfold items at hu
  by_cases ha : f.any (fun b => b.1 = s.name)
  · rw [if_pos ha] at hu
    replace hu := (List.mem_filter.1 hu).1
    have key : ∀ (l : List (Str × Str)) (d : List (Str × Str)), (w, u) ∈ l.foldl setOpt d →
        (w, u) ∈ d ∨ ∃ x, LastFor l w x := by
      intro l
      induction l using snoc_induction with
      | h0 => intro d h; exact .inl h
      | hs l p ih =>
        intro d h
        rw [List.foldl_append] at h
        simp only [List.foldl_cons, List.foldl_nil, setOpt] at h
        by_cases hp : lower p.1 = w
        · exact .inr ⟨p.2, l, p.1, [], rfl, hp, by simp⟩
        · rcases List.mem_cons.1 h with h | h
          · exact absurd (congrArg Prod.fst h).symm hp
          · rcases ih d (List.mem_filter.1 h).1 with h | ⟨x, pre, k, post, rfl, hk, hpost⟩
            · exact .inl h
            · refine .inr ⟨x, pre, k, post ++ [p], by simp, hk, ?_⟩
              intro q hq
              rcases List.mem_append.1 hq with hq | hq
              · exact hpost q hq
              · rw [List.mem_singleton.1 hq]; exact hp
    rcases key _ _ hu with h' | ⟨x, hx⟩
    · simp at h'
    · obtain ⟨b, hb, hbn⟩ := List.any_eq_true.1 ha
      obtain ⟨n, os⟩ := b
      simp only [decide_eq_true_eq] at hbn
      subst hbn
      exact h x ⟨⟨os, hb⟩, _, _, (optionOf_iff _ _ _).2 rfl, (optionOf_iff _ _ _).2 rfl, hx⟩
  · rw [if_neg ha] at hu
    simp at hu

theorem sets_one (s : Sec) (k v : Str) (hs : s.name ≠ "DEFAULT".toList) : Sets [(s.name, [(k, v)])] s.name (lower k) v := by
  refine ⟨⟨_, List.mem_singleton.2 rfl⟩, [], [(k, v)], ?_, ?_, [], k, [], rfl, rfl, by simp⟩
  · exact .miss _ _ _ _ _ hs (.nil _)
  · exact .hit _ [(k, v)] [] [] (.nil _)

/-- The option `generateDebug`, spelled as in the documentation and in the defaults, reads as the default whatever the
file says. -/
theorem setting_refuted : ¬ SettingFull := by
  intro h
  have := h (fun _ => none) [("build".toList, [("generateDebug".toList, "True".toList)])] .build "generateDebug".toList
    "True".toList (sets_one .build _ _ (by decide))
  revert this; decide

/-- So do options called `items`, `defaults` and `section` (in lower case). -/
theorem setting_refuted_own : ∃ f : File, Sets f Sec.build.name "items".toList "x".toList ∧
    value (fun _ => none) f .build "items".toList ≠ conv "x".toList :=
  ⟨[("build".toList, [("items".toList, "x".toList)])], sets_one .build _ _ (by decide), by decide⟩

example : Sets [("DEFAULT".toList, [("jobs".toList, "-j2".toList)]), ("build".toList, [("Jobs".toList, "-j3".toList)]),
    ("build".toList, [("JOBS".toList, "-j4".toList)])] "build".toList "jobs".toList "-j4".toList := by
  refine ⟨⟨[("Jobs".toList, "-j3".toList)], by simp⟩, [("jobs".toList, "-j2".toList)], [("Jobs".toList, "-j3".toList), ("JOBS".toList, "-j4".toList)],
    (optionOf_iff _ _ _).2 (by decide), (optionOf_iff _ _ _).2 (by decide),
    [("jobs".toList, "-j2".toList), ("Jobs".toList, "-j3".toList)], "JOBS".toList, [], rfl, by decide, by simp⟩

/-! ## C74: boolean options -/

/-- Full statement: an option is on exactly when the file says so, in the usual spellings of "off". -/
def OffFull : Prop := ∀ (env : Str → Option Str) (f : File) (s : Sec) (w v : Str), lower w = w → w ∉ ownAttrs →
  w ≠ "__name__".toList → Sets f s.name w v → lower v ∈ ["false".toList, "no".toList, "off".toList, "0".toList] →
  (value env f s w).truthy = false

/-- It is on exactly when the value is neither empty nor "False". -/
theorem truthy_partial (env : Str → Option Str) (f : File) (s : Sec) (w v : Str) (hw : lower w = w)
    (ho : w ∉ ownAttrs) (hn : w ≠ "__name__".toList) (h : Sets f s.name w v) :
    (value env f s w).truthy = true ↔ v ≠ [] ∧ v ≠ "False".toList := by
  rw [setting_partial env f s w v hw ho hn (by rwa [hw])]
  unfold conv
  by_cases h1 : v = "True".toList
  · subst h1; decide
  · rw [if_neg h1]
    by_cases h2 : v = "False".toList
    · subst h2; decide
    · rw [if_neg h2]
      simp only [Val.truthy, decide_eq_true_eq]
      exact ⟨fun h => ⟨h, h2⟩, fun h => h.1⟩

theorem off_refuted : ¬ OffFull := by
  intro h
  have := h (fun _ => none) [("general".toList, [("xdelta".toList, "false".toList)])] .general "xdelta".toList
    "false".toList (by decide) (by decide) (by decide) (sets_one .general "xdelta".toList _ (by decide)) (by decide)
  revert this; decide

/-! ## C75: the compression level -/

/-- Full statement: a number given as compression level is passed to `lzma`. -/
def CompressionFull : Prop := ∀ (env : Str → Option Str) (f : File) (v : Str) (n : Nat),
  Sets f Sec.build.name "compressionlevel".toList v → pyInt v = some (n : Int) → n ≠ 0 →
  lzmaLevel (value env f .build "compressionlevel".toList) = .ok (some n)

/-- Without a setting the level is 7. -/
theorem compression_default_partial (env : Str → Option Str) (f : File)
    (h : ∀ u, ¬ Sets f Sec.build.name "compressionlevel".toList u) :
    lzmaLevel (value env f .build "compressionlevel".toList) = .ok (some 7) := by
  rw [unset_default env f .build _ (.int 7) h (by simp [defaults])]
  rfl

/-- Every setting other than the empty string, "True" and "False" makes the packing fail. -/
theorem compression_fails (env : Str → Option Str) (f : File) (v : Str)
    (h : Sets f Sec.build.name "compressionlevel".toList v) (h0 : v ≠ []) (h1 : v ≠ "True".toList)
    (h2 : v ≠ "False".toList) : lzmaLevel (value env f .build "compressionlevel".toList) = .error () := by
  rw [setting_partial env f .build _ v (by decide) (by decide) (by decide)
    (by rw [show lower "compressionlevel".toList = "compressionlevel".toList by decide]; exact h)]
  unfold conv
  rw [if_neg h1, if_neg h2]
  cases v with
  | nil => exact absurd rfl h0
  | cons c v => rfl

theorem compression_refuted : ¬ CompressionFull := by
  intro h
  have hs : Sets [(Sec.build.name, [("compressionlevel".toList, "9".toList)])] Sec.build.name
    (lower "compressionlevel".toList) "9".toList := sets_one .build _ _ (by decide)
  rw [show lower "compressionlevel".toList = "compressionlevel".toList by decide] at hs
  have h1 := h (fun _ => none) _ "9".toList 9 hs (by decide) (by decide)
  rw [compression_fails _ _ _ hs (by decide) (by decide) (by decide)] at h1
  cases h1

/-! ## C76: the bandwidth limit -/

/-- The limit of the command line, if any; "0" there lifts that of the file. -/
theorem limit_option (o f : Val) (n : Int) (ho : o.truthy = true) (hn : o.toInt = some n) :
    bandwidthLimit o f = some (1024 * n) := by
  have : o.or f = o := by simp [Val.or, ho]
  unfold bandwidthLimit
  simp only [this, ho, Bool.true_and]
  by_cases h0 : o = .str ['0']
  · subst h0
    have : n = 0 := by
      have : (Val.str ['0']).toInt = some 0 := by decide
      rw [this] at hn
      exact (Option.some.inj hn).symm
    subst this
    decide
  · simp [h0, hn]

/-- Otherwise that of the file. -/
theorem limit_file (o f : Val) (n : Int) (ho : o.truthy = false) (hn : f.toInt = some n) :
    bandwidthLimit o f = some (1024 * n) := by
  have : o.or f = f := by simp [Val.or, ho]
  unfold bandwidthLimit
  simp only [this]
  by_cases hf : f.truthy = true
  · rw [hf]
    by_cases h0 : f = .str ['0']
    · subst h0
      have : n = 0 := by
        have : (Val.str ['0']).toInt = some 0 := by decide
        rw [this] at hn
        exact (Option.some.inj hn).symm
      subst this
      decide
    · simp [h0, hn]
  · have : n = 0 := by
      cases f with
      | str s =>
        have : s = [] := by simpa [Val.truthy] using hf
        subst this
        have : (Val.str []).toInt = Option.none := by decide
        rw [this] at hn; cases hn
      | bool b =>
        have : b = false := by simpa [Val.truthy] using hf
        subst this
        simpa [Val.toInt] using hn.symm
      | int k =>
        have : k = 0 := by simpa [Val.truthy] using hf
        subst this
        simpa [Val.toInt] using hn.symm
      | none => simp [Val.toInt] at hn
      | other => simp [Val.toInt] at hn
    subst this
    simp [hf]

/-- Without any, no limit. -/
theorem limit_unset (env : Str → Option Str) (f : File)
    (h : ∀ u, ¬ Sets f Sec.general.name "bandwidth_limit".toList u) :
    bandwidthLimit (.int 0) (value env f .general "bandwidth_limit".toList) = some 0 := by
  rw [unset_default env f .general _ (.int 0) h (by simp [defaults])]
  decide

/-- A limit that is not a number makes every download fail. -/
theorem limit_bad (o : Val) (s : Str) (ho : o.truthy = false) (hs : s ≠ []) (hn : pyInt s = none) :
    bandwidthLimit o (.str s) = none := by
  have h0 : s ≠ ['0'] := by rintro rfl; revert hn; decide
  have : o.or (.str s) = .str s := by simp [Val.or, ho]
  simp [bandwidthLimit, this, Val.truthy, hs, h0, Val.toInt, hn]

example : bandwidthLimit (.int 0) (.str "50".toList) = some 51200 ∧ bandwidthLimit (.str "0".toList) (.str "50".toList) = some 0
    ∧ bandwidthLimit (.int 0) (.str "x".toList) = none := by decide

/-! ## C77: proxies -/

/-- Full statement: a proxy configured for the scheme of a URL is handed to the downloader for that scheme. -/
def ProxyFull : Prop := ∀ (env : Str → Option Str) (f : File) (sch key p : Str),
  (sch, key) ∈ [("http".toList, "http_proxy".toList), ("https".toList, "https_proxy".toList), ("ftp".toList, "ftp_proxy".toList)] →
  value env f .general key = .str p → p ≠ [] → (sch, p) ∈ getProxies env f sch

/-- Exactly: it is handed over for the scheme of the proxy's own URL, and nothing else is. -/
theorem proxy_exact (env : Str → Option Str) (f : File) (sch key p : Str)
    (hs : (sch, key) ∈ [("http".toList, "http_proxy".toList), ("https".toList, "https_proxy".toList),
      ("ftp".toList, "ftp_proxy".toList)])
    (hv : value env f .general key = .str p) (hp : p ≠ []) : getProxies env f sch = [(scheme p, p)] := by
  have skip : ∀ (v : Val) (name : Str) (d : List (Str × Str)), sch ≠ name → proxyFor v name sch d = d := by
    intro v name d h
    unfold proxyFor
    split
    · rw [if_neg h]
    · rfl
  have hit : ∀ (d : List (Str × Str)), proxyFor (.str p) sch sch d = (scheme p, p) :: d := by
    intro d
    cases p with
    | nil => exact absurd rfl hp
    | cons c p => simp [proxyFor]
  simp only [List.mem_cons, Prod.mk.injEq, List.not_mem_nil, or_false] at hs
  unfold getProxies
  rcases hs with ⟨rfl, rfl⟩ | ⟨rfl, rfl⟩ | ⟨rfl, rfl⟩
  · rw [skip _ _ _ (by decide), skip _ _ _ (by decide), hv, hit]
  · rw [skip _ "ftp".toList _ (by decide), hv, hit, skip _ _ _ (by decide)]
  · rw [hv, hit, skip _ _ _ (by decide), skip _ _ _ (by decide)]

/-- The statement holds when the proxy's URL has the scheme it is configured for. -/
theorem proxy_partial (env : Str → Option Str) (f : File) (sch key p : Str)
    (hs : (sch, key) ∈ [("http".toList, "http_proxy".toList), ("https".toList, "https_proxy".toList),
      ("ftp".toList, "ftp_proxy".toList)])
    (hv : value env f .general key = .str p) (hp : p ≠ []) (he : scheme p = sch) : (sch, p) ∈ getProxies env f sch := by
  rw [proxy_exact env f sch key p hs hv hp, he]
  exact List.mem_singleton.2 rfl

/-- An http proxy for https URLs is not used. -/
theorem proxy_refuted : ¬ ProxyFull := by
  intro h
  have := h (fun x => if x = "HTTPS_PROXY".toList then some "http://proxy:3128".toList else none) [] "https".toList
    "https_proxy".toList "http://proxy:3128".toList (by simp) (by decide) (by decide)
  revert this; decide

example : (("http".toList, "http://proxy:3128".toList) ∈ getProxies (fun _ => none)
    [("general".toList, [("http_proxy".toList, "http://proxy:3128".toList)])] "http".toList) := by decide

/-! ## C78: directories below the destination -/

/-- The scheme of `p:r` is `p` in lower case. -/
theorem scheme_lower (p r : Str) (hp : Uri.Spec.Scheme p) (hr : ∃ c ∈ r, ¬ ('0' ≤ c ∧ c ≤ '9')) :
    scheme (p ++ ':' :: r) = lower p := by
  unfold scheme Uri.scheme
  rw [(Uri.scheme_exact _).1 p r ⟨rfl, hp, .inr (.inr hr)⟩]
  rfl

example : scheme "HTTP://proxy:8080".toList = "http".toList := by decide

/-- Full statement: the destination is an absolute path and all directories are below it. -/
def DestFull : Prop := ∀ (cwd : Str) (o : Option Str) (file path : Str) (w : Bool) (u : Option Str), IsAbs cwd → file ≠ [] →
  IsAbs (destDir cwd o file) ∧ segs (destDir cwd o file) <+: segs (subdir (destDir cwd o file) path) ∧
    segs (destDir cwd o file) <+: segs (tmpDir (destDir cwd o file) path w u)

/-- The directories other than a temporary directory without write access are the destination followed by the configured
path. -/
theorem subdir_partial (dest path : Str) (u : Option Str) :
    segs (subdir dest path) = segs dest ++ segs path ∧ tmpDir dest path true u = subdir dest path := by
  refine ⟨?_, rfl⟩
  have := (join_path_denotes dest [path]).1
  simpa [subdir] using this

/-- Without write access the temporary directory is the user's in /tmp, wherever the destination is. -/
theorem tmp_refuted (dest path : Str) (u : Option Str) :
    tmpDir dest path false u = "/tmp/pisi-".toList ++ u.getD "root".toList := by
  cases u <;> rfl

/-- The destination is absolute when the option has no leading white space and the configured one is absolute. -/
theorem dest_abs_partial (cwd : Str) (o : Option Str) (file : Str) (hc : IsAbs cwd) (hf : IsAbs file)
    (ho : ∀ s, o = some s → s.head?.all (fun c => ¬ isSpace c)) : IsAbs (destDir cwd o file) := by
  unfold destDir
  split
  · rename_i c s
    have hs := ho _ rfl
    simp only [List.head?_cons, Option.all_some, decide_eq_true_eq] at hs
    have hc' : (c :: s).dropWhile isSpace = c :: s := by
      rw [List.dropWhile_cons_of_neg hs]
    rw [hc']
    by_cases h : (rstrip isSpace (c :: s)).head? = some '/'
    · rw [if_pos h]
      have : c = '/' := by
        unfold rstrip at h
        have hsuf : ((c :: s).reverse.dropWhile isSpace) <:+ (c :: s).reverse := List.dropWhile_suffix _
        obtain ⟨t, ht⟩ := hsuf
        have ht' := congrArg List.reverse ht
        rw [List.reverse_append, List.reverse_reverse] at ht'
        cases hr : ((c :: s).reverse.dropWhile isSpace).reverse with
        | nil => rw [hr] at h; simp at h
        | cons d r =>
          rw [hr] at h ht'
          simp only [List.head?_cons, Option.some.injEq] at h
          simp only [List.cons_append, List.cons.injEq] at ht'
          rw [← ht'.1, h]
      exact ⟨s, by rw [this]⟩
    · rw [if_neg h]
      exact (join_path_denotes cwd [c :: s]).2.2 hc
  · exact hf

theorem dest_refuted : ¬ DestFull := by
  intro h
  have := (h "/home".toList none "/mnt".toList "/var/tmp/pisi".toList false none ⟨_, rfl⟩ (by decide)).2.2
  revert this; decide

/-- An option with leading white space gives a relative destination. -/
theorem dest_refuted_space : ∃ o : Str, ¬ IsAbs (destDir "/home".toList (some o) "/".toList) := by
  refine ⟨" /mnt".toList, ?_⟩
  have : destDir "/home".toList (some " /mnt".toList) "/".toList = " /mnt".toList := by decide
  rw [this]
  rintro ⟨r, hr⟩
  cases hr

example : destDir "/home".toList (some "x".toList) "/".toList = "/home/x".toList ∧
    destDir "/home".toList (some "/mnt".toList) "/".toList = "/mnt".toList ∧
    subdir "/mnt".toList "/var/db/pisi".toList = "/mnt/var/db/pisi".toList := by decide

/-! ## C50: constants -/

variable {κ ν : Type} [DecidableEq κ]

theorem get_attempt (d : Consts κ ν) (a : Attempt κ ν) (k : κ) :
    (attempt d a).1.get k = match d.get k, a with
      | some v, _ => some v
      | none, .set k' v => if k' = k then some v else none
      | none, .del _ => none := by
  cases a with
  | set k' v =>
    simp only [attempt]
    by_cases h : (d.get k').isSome
    · rw [if_pos h]
      cases hk : d.get k with
      | some w => rfl
      | none =>
        have : k' ≠ k := by rintro rfl; rw [hk] at h; cases h
        simp [this]
    · rw [if_neg h]
      by_cases hk : k' = k
      · subst hk
        have hn : d.get k' = none := by simpa using h
        rw [hn]
        simp [Consts.get]
      · have : Consts.get ((k', v) :: d) k = d.get k := by
          simp [Consts.get, List.find?_cons_of_neg, hk]
        rw [this]
        cases hd : d.get k <;> simp [hk]
  | del k' =>
    unfold attempt
    have : (if (d.get k').isSome then (d, Outcome.constError) else (d, .nameError)).1 = d := by split <;> rfl
    rw [this]
    cases d.get k <;> rfl

theorem attempts_get (as : List (Attempt κ ν)) (k : κ) :
    (∀ v, (attempts as).get k = some v ↔ FirstSet as k v) := by
  induction as using snoc_induction with
  | h0 =>
    intro v
    constructor
    · intro h; simp [attempts, Consts.get] at h
    · rintro ⟨pre, post, h, _⟩
      simp at h
  | hs l a ih =>
    intro v
    have hstep : attempts (l ++ [a]) = (attempt (attempts l) a).1 := by simp [attempts]
    rw [hstep, get_attempt]
    cases hd : (attempts l).get k with
    | some w =>
      have hw := (ih w).1 hd
      simp only [Option.some.injEq]
      constructor
      · rintro rfl
        obtain ⟨pre, post, rfl, hp⟩ := hw
        exact ⟨pre, post ++ [a], by simp, hp⟩
      · rintro ⟨pre, post, h, hp⟩
        rcases snoc_eq_append_cons.1 h with ⟨h1, h2, h3⟩ | ⟨post', h1, h2⟩
        · obtain ⟨p2, q2, e2, _⟩ := hw
          exact absurd (by rw [h1, e2]; simp) (hp w)
        · have := (ih v).2 ⟨pre, post', h2, hp⟩
          rw [hd] at this
          exact Option.some.inj this
    | none =>
      have hno : ∀ w, .set k w ∉ l := by
        have key : ∀ l : List (Attempt κ ν), (∃ w, .set k w ∈ l) → ∃ w, FirstSet l k w := by
          intro l
          induction l with
          | nil => rintro ⟨w, hw⟩; simp at hw
          | cons b l ih2 =>
            rintro ⟨w, hw⟩
            by_cases hb : ∃ u, b = .set k u
            · obtain ⟨u, rfl⟩ := hb
              exact ⟨u, [], l, rfl, by simp⟩
            · rcases List.mem_cons.1 hw with rfl | hw
              · exact absurd ⟨w, rfl⟩ hb
              · obtain ⟨u, pre, post, rfl, hp⟩ := ih2 ⟨w, hw⟩
                refine ⟨u, b :: pre, post, rfl, ?_⟩
                intro x hx
                rcases List.mem_cons.1 hx with rfl | hx
                · exact hb ⟨x, rfl⟩
                · exact hp x hx
        intro w hw
        obtain ⟨u, hu⟩ := key l ⟨w, hw⟩
        rw [(ih u).2 hu] at hd
        cases hd
      constructor
      · intro h
        cases a with
        | set k' v' =>
          by_cases hk : k' = k
          · subst hk
            simp only [if_true, Option.some.injEq] at h
            subst h
            exact ⟨l, [], rfl, hno⟩
          · simp [hk] at h
        | del k' => simp at h
      · rintro ⟨pre, post, h, hp⟩
        rcases snoc_eq_append_cons.1 h with ⟨h1, h2, h3⟩ | ⟨post', h1, h2⟩
        · subst h2; simp
        · exact absurd (by rw [h2]; simp) (hno v)

/-- After any attempts a constant has the value of the first assignment to it. -/
theorem constant_first (as : List (Attempt κ ν)) (k : κ) (v : ν) : (attempts as).get k = some v ↔ FirstSet as k v :=
  attempts_get as k v

/-- An attempt succeeds exactly when it is the first assignment; every other one raises, deletions always do. -/
theorem constant_raises (as : List (Attempt κ ν)) (k : κ) (v : ν) :
    ((attempt (attempts as) (.set k v)).2 = .ok ↔ ∀ w, .set k w ∉ as) ∧
      ((attempt (attempts as) (.set k v)).2 ≠ .ok → (attempt (attempts as) (.set k v)) = (attempts as, .constError)) ∧
      (attempt (attempts as) (.del k)).2 ≠ .ok ∧ (attempt (attempts as) (.del k)).1 = attempts as := by
  refine ⟨?_, ?_, ?_, ?_⟩
  · constructor
    · intro h w hw
      have hsome : ∃ u, (attempts as).get k = some u := by
        obtain ⟨pre, post, rfl⟩ := List.append_of_mem hw
        cases hd : (attempts (pre ++ .set k w :: post)).get k with
        | some u => exact ⟨u, rfl⟩
        | none =>
          exfalso
          have mono : ∀ (l : List (Attempt κ ν)) (d : Consts κ ν), (d.get k).isSome →
              ((l.foldl (fun d a => (attempt d a).1) d).get k).isSome := by
            intro l
            induction l with
            | nil => intro d h; exact h
            | cons a l ih =>
              intro d h
              rw [List.foldl_cons]
              apply ih
              rw [get_attempt]
              obtain ⟨u, hu⟩ := Option.isSome_iff_exists.1 h
              rw [hu]; rfl
          have : (attempts (pre ++ .set k w :: post)).get k |>.isSome := by
            unfold attempts
            rw [List.foldl_append, List.foldl_cons]
            apply mono
            rw [get_attempt]
            split
            · rfl
            · rename_i h1 h2; cases h2; simp
            · rename_i h1 h2; cases h2
          rw [hd] at this
          cases this
      obtain ⟨u, hu⟩ := hsome
      simp [attempt, hu] at h
    · intro h
      cases hd : (attempts as).get k with
      | some u =>
        obtain ⟨pre, post, rfl, _⟩ := (attempts_get as k u).1 hd
        exact absurd (by simp) (h u)
      | none => simp [attempt, hd]
  · intro h
    by_cases h1 : ((attempts as).get k).isSome
    · exact if_pos h1
    · exact absurd (by simp only [attempt]; rw [if_neg h1]) h
  · simp only [attempt]; split <;> simp
  · simp only [attempt]; split <;> rfl

example : (attempts [.set 1 'a', .del 1, .set 1 'b', .set 2 'c']).get 1 = some 'a' ∧
    (attempt (attempts [.set 1 'a']) (.set 1 'b')).2 = .constError ∧
    (attempt (attempts [.set 1 'a']) (.del 2)).2 = .nameError := by decide

/-- C77: a variable that is not set or empty gives no proxy, any other gives itself, unless the file says something. -/
theorem proxy_default (env : Str → Option Str) (v key : Str)
    (h : (v, key) ∈ [("HTTP_PROXY".toList, "http_proxy".toList), ("HTTPS_PROXY".toList, "https_proxy".toList),
      ("FTP_PROXY".toList, "ftp_proxy".toList)]) :
    ((env v = none ∨ env v = some []) → value env [] .general key = .none) ∧
    ∀ p, p ≠ [] → env v = some p → value env [] .general key = .str p := by
  have hd : value env [] .general key = envOr env v := by
    simp only [List.mem_cons, Prod.mk.injEq, List.not_mem_nil, or_false] at h
    rcases h with ⟨rfl, rfl⟩ | ⟨rfl, rfl⟩ | ⟨rfl, rfl⟩ <;> rfl
  rw [hd]
  unfold envOr
  constructor
  · rintro (h | h) <;> rw [h]
  · intro p hp h
    rw [h]
    cases p with
    | nil => exact absurd rfl hp
    | cons c p => rfl

example : value (fun _ => some []) [] .general "http_proxy".toList = .none ∧
    value (fun _ => some ['p']) [] .general "ftp_proxy".toList = .str ['p'] := by decide

end Pisi.Config
