import Verif.Lemmas.Str
import Verif.Lemmas.Version

/-! The parser accepts exactly the grammar of `Verif.Spec.Version`. -/

namespace Pisi.Version
open Pisi Pisi.Version.Spec

theorem Kw.str_inj : ∀ a b : Kw, a.str = b.str → a = b := by
  intro a b; cases a <;> cases b <;> decide

theorem Kw.str_alpha (k : Kw) : ∀ c ∈ k.str, c.isAlpha = true := by
  cases k <;> decide

theorem Kw.str_ne_nil (k : Kw) : k.str ≠ [] := by cases k <;> decide

theorem Kw.nokey_clash (k : Kw) (hk : k ≠ .nokey) (s : Str) (h : k.str <+: s)
    (h' : Kw.nokey.str <+: s) : False := by
  obtain ⟨t, rfl⟩ := h
  cases k <;> simp_all [Kw.str]

theorem scan_spec (s : Str) (ks : List Kw) (cur : Kw) (hcur : cur = .nokey ∨ cur.str <+: s) :
    (scanKeyword s ks cur = cur ∨ scanKeyword s ks cur ∈ ks) ∧
    (scanKeyword s ks cur = .nokey ∨ (scanKeyword s ks cur).str <+: s) ∧
    (∀ k ∈ ks, k ≠ .nokey → k.str <+: s → scanKeyword s ks cur ≠ .nokey ∧
      k.str.length ≤ (scanKeyword s ks cur).str.length) ∧
    (cur ≠ .nokey → scanKeyword s ks cur ≠ .nokey ∧
      cur.str.length ≤ (scanKeyword s ks cur).str.length) := by
  induction ks generalizing cur with
  | nil => simpa [scanKeyword] using hcur
  | cons k ks ih =>
    simp only [scanKeyword]
    by_cases hp : k.str.isPrefixOf s = true
    · have hp' : k.str <+: s := List.isPrefixOf_iff_prefix.mp hp
      simp only [hp, if_true]
      by_cases hc : cur = .nokey
      · subst hc
        simp only [if_true]
        obtain ⟨i1, i2, i3, i4⟩ := ih k (Or.inr hp')
        refine ⟨?_, i2, ?_, by simp⟩
        · rcases i1 with h | h
          · right; rw [h]; simp
          · right; exact List.mem_cons_of_mem _ h
        · intro k' hk' hn hpre
          rcases List.mem_cons.mp hk' with rfl | hk'
          · exact i4 hn
          · exact i3 k' hk' hn hpre
      · simp only [hc, if_false]
        have hcp : cur.str <+: s := by rcases hcur with h | h; exact absurd h hc; exact h
        have hkn : k ≠ .nokey := fun e => Kw.nokey_clash cur hc s hcp (e ▸ hp')
        by_cases hl : k.str.length > cur.str.length
        · simp only [hl, if_true]
          obtain ⟨i1, i2, i3, i4⟩ := ih k (Or.inr hp')
          refine ⟨?_, i2, ?_, ?_⟩
          · rcases i1 with h | h
            · right; rw [h]; simp
            · right; exact List.mem_cons_of_mem _ h
          · intro k' hk' hn hpre
            rcases List.mem_cons.mp hk' with rfl | hk'
            · exact i4 hn
            · exact i3 k' hk' hn hpre
          · intro _
            have := i4 hkn
            exact ⟨this.1, by omega⟩
        · simp only [hl, if_false]
          obtain ⟨i1, i2, i3, i4⟩ := ih cur hcur
          refine ⟨?_, i2, ?_, i4⟩
          · rcases i1 with h | h
            · left; exact h
            · right; exact List.mem_cons_of_mem _ h
          · intro k' hk' hn hpre
            rcases List.mem_cons.mp hk' with rfl | hk'
            · have := i4 hc
              exact ⟨this.1, by omega⟩
            · exact i3 k' hk' hn hpre
    · simp only [hp]
      have hp' : ¬ k.str <+: s := fun h => hp (List.isPrefixOf_iff_prefix.mpr h)
      obtain ⟨i1, i2, i3, i4⟩ := ih cur hcur
      refine ⟨?_, i2, ?_, i4⟩
      · rcases i1 with h | h
        · left; exact h
        · right; exact List.mem_cons_of_mem _ h
      · intro k' hk' hn hpre
        rcases List.mem_cons.mp hk' with rfl | hk'
        · exact absurd hpre hp'
        · exact i3 k' hk' hn hpre

theorem Kw.eq_of_prefix_length (a b : Kw) (s : Str) (ha : a.str <+: s) (hb : b.str <+: s)
    (hl : a.str.length = b.str.length) : a = b := by
  apply Kw.str_inj
  have h1 := List.prefix_iff_eq_take.mp ha
  have h2 := List.prefix_iff_eq_take.mp hb
  rw [h1, h2, hl]

/-- The keyword found does not depend on the dictionary order. -/
theorem scan_order_indep (s : Str) (ks ks' : List Kw) (h : ∀ k, k ∈ ks ↔ k ∈ ks') :
    scanKeyword s ks .nokey = scanKeyword s ks' .nokey := by
  obtain ⟨a1, a2, a3, _⟩ := scan_spec s ks .nokey (Or.inl rfl)
  obtain ⟨b1, b2, b3, _⟩ := scan_spec s ks' .nokey (Or.inl rfl)
  generalize scanKeyword s ks .nokey = r at *
  generalize scanKeyword s ks' .nokey = r' at *
  by_cases hr : r = .nokey
  · by_cases hr' : r' = .nokey
    · rw [hr, hr']
    · have hm : r' ∈ ks := (h r').mpr (b1.resolve_left hr')
      exact absurd hr (a3 r' hm hr' (b2.resolve_left hr')).1
  · have hm : r ∈ ks' := (h r).mp (a1.resolve_left hr)
    obtain ⟨hr', hl⟩ := b3 r hm hr (a2.resolve_left hr)
    have hm' : r' ∈ ks := (h r').mpr (b1.resolve_left hr')
    have hl' := (a3 r' hm' hr' (b2.resolve_left hr')).2
    exact Kw.eq_of_prefix_length r r' s (a2.resolve_left hr) (b2.resolve_left hr') (by omega)

theorem Kw.mem_all (k : Kw) : k ∈ Kw.all := by cases k <;> decide

theorem letter_iff (c : Char) : c.isAlpha = true ↔ Letter c := by
  simp only [Char.isAlpha, Char.isUpper, Char.isLower, Bool.or_eq_true, Bool.and_eq_true,
    decide_eq_true_eq, Letter]
  constructor
  · rintro (h | h)
    · right; exact h
    · left; exact h
  · rintro (h | h)
    · right; exact h
    · left; exact h

theorem digit_not_alpha (c : Char) (h : c.isDigit = true) : c.isAlpha = false := by
  obtain ⟨d, hd, rfl⟩ := (isDigit_iff c).mp h
  have : ∀ d, d < 10 → (Char.ofNat (48 + d)).isAlpha = false := by decide
  exact this d hd

theorem space_not_alpha (c : Char) (h : Space c) : c.isAlpha = false := by
  simp only [Space, List.mem_cons, List.not_mem_nil, or_false] at h
  rcases h with rfl | rfl | rfl | rfl | rfl | rfl <;> decide

theorem Spec.Number.head {s : Str} {z : Int} (h : Number s z) :
    ∃ c r, s = c :: r ∧ c.isAlpha = false := by
  obtain ⟨w₁, sg, ds, w₂, n, rfl, hw1, hw2, hne, hd, hz⟩ := h
  cases w₁ with
  | cons c w => exact ⟨c, _, by simp; rfl, space_not_alpha c (hw1 c (by simp))⟩
  | nil =>
    rcases hz with ⟨rfl, _⟩ | ⟨rfl, _⟩ | ⟨rfl, _⟩
    · cases ds with
      | nil => exact absurd rfl hne
      | cons d ds =>
        exact ⟨d, _, by simp; rfl, digit_not_alpha d (((decVal_iff _ _).mp hd).1 d (by simp))⟩
    · exact ⟨'+', _, by simp; rfl, by decide⟩
    · exact ⟨'-', _, by simp; rfl, by decide⟩

theorem scan_of_nonalpha (s : Str) (h : ∃ c r, s = c :: r ∧ c.isAlpha = false) (ks : List Kw) :
    scanKeyword s ks .nokey = .nokey := by
  obtain ⟨c, r, rfl, hc⟩ := h
  obtain ⟨_, a2, _, _⟩ := scan_spec (c :: r) ks .nokey (Or.inl rfl)
  rcases a2 with h | h
  · exact h
  · generalize scanKeyword (c :: r) ks .nokey = k at h
    rcases hk : k.str with _ | ⟨d, t⟩
    · exact absurd hk (Kw.str_ne_nil k)
    · rw [hk] at h
      have hd := Kw.str_alpha k d (by rw [hk]; simp)
      obtain ⟨u, hu⟩ := h
      simp at hu
      rw [hu.1, hc] at hd; simp at hd

theorem scan_of_kw (k : Kw) (hk : k ≠ .nokey) (s : Str) (h : ∃ c r, s = c :: r ∧ c.isAlpha = false) :
    scanKeyword (k.str ++ s) Kw.all .nokey = k := by
  obtain ⟨c, r, rfl, hc⟩ := h
  obtain ⟨_, a2, a3, _⟩ := scan_spec (k.str ++ c :: r) Kw.all .nokey (Or.inl rfl)
  obtain ⟨h1, h2⟩ := a3 k (Kw.mem_all k) hk ⟨_, rfl⟩
  generalize scanKeyword (k.str ++ c :: r) Kw.all .nokey = k' at *
  have hp := a2.resolve_left h1
  rcases Nat.lt_or_eq_of_le h2 with hlt | heq
  · exfalso
    have e := List.prefix_iff_getElem?.mp hp k.str.length hlt
    simp at e
    have := Kw.str_alpha k' _ (List.getElem_mem hlt)
    rw [← e, hc] at this; simp at this
  · exact Kw.eq_of_prefix_length k' k _ hp ⟨_, rfl⟩ heq.symm

theorem kwSpelling_str (k : Kw) (w : String) (h : kwSpelling k = some w) :
    w.toList = k.str ∧ k ≠ .nokey := by
  cases k <;> simp [kwSpelling] at h <;> subst h <;> simp [Kw.str]

theorem str_kwSpelling (k : Kw) (h : k ≠ .nokey) : ∃ w, kwSpelling k = some w ∧ w.toList = k.str := by
  cases k <;> simp [kwSpelling, Kw.str] at h ⊢

theorem mkItem_iff (s : Str) (a : Item) :
    mkItem s = some a ↔ ItemG s a ∨ ∃ c, Letter c ∧ s = [c] ∧ a = ⟨.nokey, .letter c⟩ := by
  constructor
  · intro h
    simp only [mkItem, mkItemWith] at h
    generalize hkw : (if s.length > 1 then scanKeyword s Kw.all .nokey else Kw.nokey) = kw at h
    have numcase : ∀ k, (pyInt s).map (fun n => (⟨k, .num n⟩ : Item)) = some a → k = .nokey →
        ItemG s a := by
      intro k h hk
      simp only [Option.map_eq_some_iff] at h
      obtain ⟨z, hz, rfl⟩ := h
      subst hk
      exact ItemG.num s z ((pyInt_iff s z).mp hz)
    by_cases hk : kw = .nokey
    · simp only [hk, if_true] at h
      split at h
      · rename_i c
        split at h
        · rename_i hc
          right; exact ⟨c, (letter_iff c).mp hc, rfl, by simpa using h.symm⟩
        · left; exact numcase _ h rfl
      · left; exact numcase _ h rfl
    · simp only [hk, if_false] at h
      simp only [Option.map_eq_some_iff] at h
      obtain ⟨z, hz, rfl⟩ := h
      left
      have hp : kw.str <+: s := by
        split at hkw
        · have := (scan_spec s Kw.all .nokey (Or.inl rfl)).2.1
          rw [hkw] at this
          exact this.resolve_left hk
        · exact absurd hkw.symm hk
      obtain ⟨w, hw, hws⟩ := str_kwSpelling kw hk
      obtain ⟨t, rfl⟩ := hp
      rw [List.drop_left] at hz
      rw [← hws]
      exact ItemG.kw kw w t z hw ((pyInt_iff t z).mp hz)
  · rintro (h | ⟨c, hc, rfl, rfl⟩)
    · cases h with
      | num _ z h =>
        have hh := h.head
        have hkw : (if s.length > 1 then scanKeyword s Kw.all .nokey else Kw.nokey) = .nokey := by
          split
          · exact scan_of_nonalpha s hh _
          · rfl
        have hz := (pyInt_iff s z).mpr h
        simp only [mkItem, mkItemWith, hkw, if_true]
        split
        · rename_i c
          obtain ⟨c', r, he, hc'⟩ := hh
          simp at he
          simp [he.1, hc', he.1 ▸ hz]
        · simp [hz]
      | kw k w s z hk h =>
        obtain ⟨hw, hn⟩ := kwSpelling_str k w hk
        have hh := h.head
        rw [hw]
        have hlen : (k.str ++ s).length > 1 := by
          obtain ⟨c, r, rfl, _⟩ := hh
          have := Kw.str_ne_nil k
          have : k.str.length ≠ 0 := by simpa using this
          simp; omega
        have hz := (pyInt_iff s z).mpr h
        simp only [mkItem, mkItemWith, if_pos hlen, scan_of_kw k hn s hh, hn, if_false,
          List.drop_left, hz, Option.map_some]
    · have := (letter_iff c).mpr hc
      simp [mkItem, mkItemWith, this]

theorem splitTail_some (i h t : Str) :
    splitTail i = some (h, t) ↔
      ∃ c nl, t = [c] ∧ OptNewline nl ∧ i = h ++ c :: nl ∧ inTailClass c = true := by
  constructor
  · intro e
    simp only [splitTail] at e
    split at e
    · simp at e
    · rename_i c r hr
      have hi : i = r.reverse ++ [c] := by
        have := congrArg List.reverse hr; simpa using this
      split at e
      · rename_i hc
        simp at e; obtain ⟨rfl, rfl⟩ := e
        exact ⟨c, [], rfl, Or.inl rfl, hi, hc⟩
      · split at e
        · rename_i hn
          split at e
          · simp at e
          · rename_i d r'
            split at e
            · rename_i hd
              simp at e; obtain ⟨rfl, rfl⟩ := e
              exact ⟨d, ['\n'], rfl, Or.inr rfl, by rw [hi, hn]; simp, hd⟩
            · simp at e
        · simp at e
  · rintro ⟨c, nl, rfl, hnl, rfl, hc⟩
    rcases hnl with rfl | rfl
    · simp [splitTail, hc]
    · have : inTailClass '\n' = false := by decide
      simp [splitTail, this, hc]

/-- A number string has no letter (or `-`) at its end. -/
theorem Spec.ItemG.no_tail {s : Str} {a : Item} (h : ItemG s a) : splitTail s = none := by
  have hnum : ∀ (u : Str) (s : Str) (z : Int), Number s z → splitTail (u ++ s) = none := by
    intro u s z h
    rcases hs : splitTail (u ++ s) with _ | ⟨hd, tl⟩
    · rfl
    · exfalso
      obtain ⟨c, nl, rfl, hnl, he, hc⟩ := (splitTail_some _ _ _).mp hs
      obtain ⟨w₁, sg, ds, w₂, n, rfl, hw1, hw2, hne, hdv, hz⟩ := h
      have hdig := ((decVal_iff _ _).mp hdv).1
      have hspc : ∀ x, Space x → inTailClass x = false := by
        intro x hx
        simp only [Space, List.mem_cons, List.not_mem_nil, or_false] at hx
        rcases hx with rfl | rfl | rfl | rfl | rfl | rfl <;> decide
      have hdgc : ∀ x, x.isDigit = true → inTailClass x = false := by
        intro x hx
        obtain ⟨d, hd, rfl⟩ := (isDigit_iff x).mp hx
        have : ∀ d, d < 10 → inTailClass (Char.ofNat (48 + d)) = false := by decide
        exact this d hd
      -- look at the string backwards
      have he' := congrArg List.reverse he
      simp only [List.reverse_append, List.reverse_cons] at he'
      have hcls : ∀ x ∈ w₂.reverse ++ ds.reverse, inTailClass x = false := by
        intro x hx
        rcases List.mem_append.mp hx with hx | hx
        · exact hspc x (hw2 x (by simpa using hx))
        · exact hdgc x (hdig x (by simpa using hx))
      have hlen : (w₂.reverse ++ ds.reverse).length ≥ 1 := by
        have : ds.length ≠ 0 := by simpa using hne
        simp; omega
      have hassoc : w₂.reverse ++ (ds.reverse ++ (sg.reverse ++ w₁.reverse)) ++ u.reverse =
          (w₂.reverse ++ ds.reverse) ++ (sg.reverse ++ w₁.reverse ++ u.reverse) := by simp
      rw [hassoc] at he'
      generalize hL : w₂.reverse ++ ds.reverse = L at *
      cases L with
      | nil => simp at hlen
      | cons x L =>
        rcases hnl with rfl | rfl
        · simp at he'
          have := hcls x (by simp)
          rw [he'.1, hc] at this; simp at this
        · simp at he'
          cases L with
          | cons y L =>
            simp at he'
            have := hcls y (by simp)
            rw [he'.2.1, hc] at this; simp at this
          | nil =>
            -- the single element is a digit
            have h2 : w₂ = [] ∧ ds = [x] := by
              have hl := congrArg List.length hL
              have : ds.length ≠ 0 := by simpa using hne
              simp at hl
              have hw : w₂ = [] := List.length_eq_zero_iff.mp (by omega)
              subst hw
              simp at hL
              exact ⟨rfl, by have := congrArg List.reverse hL; simpa using this⟩
            have := hdig x (by rw [h2.2]; simp)
            rw [he'.1] at this
            exact absurd this (by decide)
  cases h with
  | num _ z h => exact hnum [] s z h
  | kw k w s z hk h => exact hnum w.toList s z h

theorem parsePiece_iff (i : Str) (l : List Item) : parsePiece i = some l ↔ PieceG i l := by
  constructor
  · intro h
    simp only [parsePiece] at h
    split at h
    · rename_i hd tl hs
      obtain ⟨c, nl, rfl, hnl, rfl, hc⟩ := (splitTail_some _ _ _).mp hs
      simp only [Option.bind_eq_bind, Option.bind_eq_some_iff, Option.pure_def, Option.some.injEq] at h
      obtain ⟨a, ha, b, hb, rfl⟩ := h
      have hb' : Letter c ∧ b = ⟨.nokey, .letter c⟩ := by
        rcases (mkItem_iff _ _).mp hb with hg | ⟨c', hc', he, rfl⟩
        · exfalso
          have : splitTail [c] = some ([], [c]) := (splitTail_some _ _ _).mpr ⟨c, [], rfl, Or.inl rfl, rfl, hc⟩
          rw [hg.no_tail] at this; simp at this
        · simp at he; subst he; exact ⟨hc', rfl⟩
      rw [hb'.2]
      rcases (mkItem_iff _ _).mp ha with hg | ⟨c', hc', rfl, rfl⟩
      · exact PieceG.lettered hd nl a c hg hb'.1 hnl
      · exact PieceG.twoLetters c' c nl hc' hb'.1 hnl
    · rename_i hs
      simp only [Option.bind_eq_bind, Option.bind_eq_some_iff, Option.pure_def, Option.some.injEq] at h
      obtain ⟨a, ha, rfl⟩ := h
      rcases (mkItem_iff _ _).mp ha with hg | ⟨c', hc', rfl, rfl⟩
      · exact PieceG.plain i a hg
      · exfalso
        have : splitTail [c'] = some ([], [c']) := (splitTail_some _ _ _).mpr
          ⟨c', [], rfl, Or.inl rfl, rfl, by simp [inTailClass, (letter_iff c').mpr hc']⟩
        rw [hs] at this; simp at this
  · intro h
    cases h with
    | plain _ a h =>
      simp [parsePiece, h.no_tail, (mkItem_iff i a).mpr (Or.inl h)]
    | lettered s t a c h hc ht =>
      have hs : splitTail (s ++ c :: t) = some (s, [c]) := (splitTail_some _ _ _).mpr
        ⟨c, t, rfl, ht, rfl, by simp [inTailClass, (letter_iff c).mpr hc]⟩
      simp [parsePiece, hs, (mkItem_iff s a).mpr (Or.inl h),
        (mkItem_iff [c] ⟨.nokey, .letter c⟩).mpr (Or.inr ⟨c, hc, rfl, rfl⟩)]
    | twoLetters c d t hc hd ht =>
      have hs : splitTail (c :: d :: t) = some ([c], [d]) := (splitTail_some _ _ _).mpr
        ⟨d, t, rfl, ht, rfl, by simp [inTailClass, (letter_iff d).mpr hd]⟩
      simp [parsePiece, hs,
        (mkItem_iff [c] ⟨.nokey, .letter c⟩).mpr (Or.inr ⟨c, hc, rfl, rfl⟩),
        (mkItem_iff [d] ⟨.nokey, .letter d⟩).mpr (Or.inr ⟨d, hd, rfl, rfl⟩)]

theorem parsePieces_iff (ps : List Str) (l : List Item) : parsePieces ps = some l ↔ PiecesG ps l := by
  induction ps generalizing l with
  | nil =>
    simp only [parsePieces, Option.some.injEq]
    constructor
    · rintro rfl; exact PiecesG.nil
    · intro h; cases h; rfl
  | cons p ps ih =>
    simp only [parsePieces, Option.bind_eq_bind, Option.bind_eq_some_iff, Option.pure_def,
      Option.some.injEq]
    constructor
    · rintro ⟨a, ha, b, hb, rfl⟩
      exact PiecesG.cons p ps a b ((parsePiece_iff p a).mp ha) ((ih b).mp hb)
    · intro h
      cases h with
      | cons _ _ a b ha hb =>
        exact ⟨a, (parsePiece_iff p a).mpr ha, b, (ih b).mpr hb, rfl⟩

theorem parse_iff (s : Str) (l : List Item) : parse s = some l ↔ VersionG s l := by
  constructor
  · intro h
    exact ⟨_, multisplit_splits s, (parsePieces_iff _ l).mp h⟩
  · rintro ⟨ps, h1, h2⟩
    have := Splits.unique h1 (multisplit_splits s)
    rw [parse, ← this]; exact (parsePieces_iff ps l).mpr h2

end Pisi.Version
