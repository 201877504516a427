import Verif.Lemmas.Xml
import Verif.Lemmas.ListAux
import Verif.Model.XmlClasses
import Verif.Lemmas.Str
import Mathlib.Data.List.Nodup

/-!
# XML records: reading what was written

C51, C80, C81 and C82, and C52 about localised texts.
-/
namespace Pisi.Xml
open Pisi.Path

/-! ## Basic values -/

theorem digit_char (n : Nat) (h : n < 10) : (Char.ofNat (48 + n)).isDigit = true ∧ digitVal (Char.ofNat (48 + n)) = n := by
  revert h
  revert n
  decide

theorem revDigits_all (n : Nat) : (∀ c ∈ revDigits n, c.isDigit = true) ∧ digitsVal (revDigits n).reverse = n ∧
    revDigits n ≠ [] := by
  induction n using Nat.strongRecOn with
  | _ n ih =>
    unfold revDigits
    by_cases h : n < 10
    · rw [if_pos h]
      obtain ⟨h1, h2⟩ := digit_char n h
      exact ⟨by simpa using h1, by simp [digitsVal, h2], by simp⟩
    · rw [if_neg h]
      obtain ⟨i1, i2, _⟩ := ih (n / 10) (by omega)
      obtain ⟨h1, h2⟩ := digit_char (n % 10) (by omega)
      refine ⟨?_, ?_, by simp⟩
      · intro c hc
        rcases List.mem_cons.1 hc with rfl | hc
        · exact h1
        · exact i1 c hc
      · rw [List.reverse_cons, digitsVal_snoc, i2, h2]; omega

theorem digit_not_space {c : Char} (h : c.isDigit = true) : uspace c = false ∧ isSpace c = false ∧ c ≠ '-' ∧ c ≠ '+' ∧
    c.toNat < 128 := by
  have h1 : 48 ≤ c.toNat ∧ c.toNat ≤ 57 := by
    simp only [Char.isDigit, Bool.and_eq_true, decide_eq_true_eq] at h
    exact ⟨h.1, h.2⟩
  have hs : isSpace c = false := by
    simp only [isSpace, Bool.or_eq_false_iff, decide_eq_false_iff_not]
    refine ⟨⟨⟨⟨⟨?_, ?_⟩, ?_⟩, ?_⟩, ?_⟩, ?_⟩ <;> (rintro rfl; revert h1; decide)
  refine ⟨?_, hs, ?_, ?_, by omega⟩
  · simp only [uspace, hs, Bool.false_or, Bool.or_eq_false_iff, decide_eq_false_iff_not, Bool.and_eq_false_iff]
    omega
  · rintro rfl; revert h1; decide
  · rintro rfl; revert h1; decide

theorem digits_pyInt (ds : Str) (h : ∀ c ∈ ds, c.isDigit = true) (hne : ds ≠ []) :
    pyInt ds = some (digitsVal ds : Int) ∧ pyInt ('-' :: ds) = some (-(digitsVal ds : Int)) := by
  have e1 : ds.dropWhile isSpace = ds := by
    cases ds with
    | nil => rfl
    | cons c ds => simp [(digit_not_space (h c (by simp))).2.1]
  have e2 : takeSign ds = (false, ds) := by
    cases ds with
    | nil => rfl
    | cons c ds =>
      obtain ⟨_, _, h1, h2, _⟩ := digit_not_space (h c (by simp))
      unfold takeSign
      split
      · rename_i e; cases e; exact absurd rfl h1
      · rename_i e; cases e; exact absurd rfl h2
      · rfl
  have e3 : ds.takeWhile Char.isDigit = ds := by
    clear e1 e2 hne
    induction ds with
    | nil => rfl
    | cons c ds ih => rw [List.takeWhile_cons_of_pos (h c (by simp)), ih (fun c hc => h c (by simp [hc]))]
  have e4 : ds.dropWhile Char.isDigit = [] := by
    clear e1 e2 e3 hne
    induction ds with
    | nil => rfl
    | cons c ds ih => rw [List.dropWhile_cons_of_pos (h c (by simp)), ih (fun c hc => h c (by simp [hc]))]
  have e5 : ds.isEmpty = false := by simp [hne]
  constructor
  · simp only [pyInt, e1, e2, e3, e4, e5]; simp
  · have : ('-' :: ds).dropWhile isSpace = '-' :: ds := by
      rw [List.dropWhile_cons_of_neg (by decide)]
    simp only [pyInt, this, takeSign, e3, e4, e5]; simp

theorem decimal_int (n : Int) : pyInt (decimal n) = some n := by
  cases n with
  | ofNat n =>
    obtain ⟨h1, h2, h3⟩ := revDigits_all n
    have := (digits_pyInt (revDigits n).reverse (by simpa using h1) (by simpa using h3)).1
    rw [h2] at this
    exact this
  | negSucc n =>
    obtain ⟨h1, h2, h3⟩ := revDigits_all (n + 1)
    have := (digits_pyInt (revDigits (n + 1)).reverse (by simpa using h1) (by simpa using h3)).2
    rw [h2] at this
    exact this

theorem minus_char : uspace '-' = false ∧ ('-' : Char).toNat < 128 := by decide

theorem decimal_chars (n : Int) : decimal n ≠ [] ∧ ∀ c ∈ decimal n, uspace c = false ∧ c.toNat < 128 := by
  cases n with
  | ofNat n =>
    obtain ⟨h1, h2, h3⟩ := revDigits_all n
    refine ⟨by simpa [decimal] using h3, fun c hc => ?_⟩
    have hd := digit_not_space (h1 c (by simpa [decimal] using hc))
    exact ⟨hd.1, hd.2.2.2.2⟩
  | negSucc n =>
    obtain ⟨h1, h2, h3⟩ := revDigits_all (n + 1)
    refine ⟨by simp [decimal], fun c hc => ?_⟩
    have hc : c ∈ '-' :: (revDigits (n + 1)).reverse := hc
    rcases List.mem_cons.1 hc with rfl | hc
    · exact minus_char
    · have hd := digit_not_space (h1 c (by simpa using hc))
      exact ⟨hd.1, hd.2.2.2.2⟩

theorem strip_solid (s : Str) (h : Solid s) : strip s = s := by
  obtain ⟨hne, h1, h2⟩ := h
  unfold strip
  have e1 : s.dropWhile uspace = s := by
    cases s with
    | nil => rfl
    | cons c s =>
      have : ¬ uspace c = true := by simpa using h1
      rw [List.dropWhile_cons_of_neg this]
  rw [e1]
  unfold rstrip
  have e2 : s.reverse.dropWhile uspace = s.reverse := by
    cases hr : s.reverse with
    | nil => rfl
    | cons c r =>
      have hs : s = r.reverse ++ [c] := by
        have := congrArg List.reverse hr
        simpa using this
      rw [hs, List.getLast?_concat] at h2
      have : ¬ uspace c = true := by simpa using h2
      rw [List.dropWhile_cons_of_neg this]
  rw [e2, List.reverse_reverse]

theorem ascii_iff (s : Str) : ascii s = true ↔ Ascii s := by
  unfold ascii Ascii; simp

theorem solid_decimal (n : Int) : Solid (decimal n) := by
  obtain ⟨h1, h2⟩ := decimal_chars n
  refine ⟨h1, ?_, ?_⟩
  · cases hh : (decimal n).head? with
    | none => rfl
    | some c => simpa using (h2 c (List.mem_of_head? hh)).1
  · cases hh : (decimal n).getLast? with
    | none => rfl
    | some c => simpa using (h2 c (List.mem_of_getLast? hh)).1

/-- A safe value is written as a text that reads as the value. -/
theorem safe_text {a : Bool} {b : Basic} {v : Val} (h : Safe a b v) (r : Bool) :
    ∃ s, encBasic r v = some (some s) ∧ s ≠ [] ∧ cons b s = some v ∧ (a = false → strip s = s) ∧
      (a = true → ascii s = true) := by
  unfold encBasic
  cases b <;> cases v <;> try exact absurd h id
  · rename_i s
    obtain ⟨h1, h2, h3⟩ := h
    have ha : ascii s = true := (ascii_iff s).2 h2
    exact ⟨s, by simp [Val.truthy, h1, unicode, ha], h1, by simp [cons, ha], fun e => strip_solid s (h3 e), fun _ => ha⟩
  · rename_i s
    obtain ⟨h1, h2, h3⟩ := h
    exact ⟨s, by simp [Val.truthy, h1, unicode], h1, by simp [cons], fun e => strip_solid s (h3 e),
      fun e => (ascii_iff s).2 (h2 e)⟩
  · rename_i n
    have h : n ≠ 0 := h
    exact ⟨decimal n, by simp [Val.truthy, h, unicode], (decimal_chars n).1, by simp [cons, pyLong, decimal_int],
      fun _ => strip_solid _ (solid_decimal n), fun _ => (ascii_iff _).2 (fun c hc => ((decimal_chars n).2 c hc).2)⟩
  · rename_i n
    have h : n ≠ 0 := h
    exact ⟨decimal n, by simp [Val.truthy, h, unicode], (decimal_chars n).1, by simp [cons, pyLong, decimal_int],
      fun _ => strip_solid _ (solid_decimal n), fun _ => (ascii_iff _).2 (fun c hc => ((decimal_chars n).2 c hc).2)⟩

theorem encBasic_agree {r q : Bool} {v : Val} {o p : Option Str} (h : encBasic r v = some o) (k : encBasic q v = some p) :
    o = p := by
  unfold encBasic at h k
  by_cases ht : v.truthy = true
  · rw [if_pos ht] at h k
    rw [h] at k
    exact Option.some.inj k
  · rw [if_neg ht] at h k
    cases r <;> cases q <;> simp at h k
    rw [← h, ← k]

theorem encBasic_true {v : Val} {o : Option Str} (h : encBasic true v = some o) : ∃ s, o = some s := by
  unfold encBasic at h
  by_cases ht : v.truthy = true
  · rw [if_pos ht] at h
    cases hu : unicode v with
    | none => rw [hu] at h; cases h
    | some s => rw [hu] at h; exact ⟨s, (Option.some.inj h).symm⟩
  · rw [if_neg ht] at h; simp at h

theorem cons_text {s : Str} (h : s ≠ []) (b : Basic) (r : Bool) : decBasic b r (some s) = cons b s := by
  cases s with
  | nil => exact absurd rfl h
  | cons c s => rfl

/-! ## One member -/

/-- Where the children of a tag member go and what their tag is. -/
def Member.dest : Member → Option (List Str × Str)
  | .attr _ _ _ | .str _ _ _ => none
  | .basic t _ _ | .loc t _ | .cls t _ _ => some ([], t)
  | .basics _ path comp _ _ | .clss _ path comp _ _ => some (path, comp)

theorem dest_path {m : Member} {q : List Str} {u : Str} (h : m.dest = some (q, u)) : m.tagPath = some (q ++ [u]) := by
  cases m <;> simp [Member.dest] at h <;> obtain ⟨rfl, rfl⟩ := h <;> rfl

theorem put_tag {m : Member} {q : List Str} {u : Str} (h : m.dest = some (q, u)) (its : Option (List Xml)) (v : Val) (n : Xml) :
    put m its v n = its.map fun cs => cs.foldl (fun n c => insertAt q c n) n := by
  cases m <;> simp [Member.dest] at h <;> obtain ⟨rfl, rfl⟩ := h <;> rfl

theorem put_elem {m : Member} {its : Option (List Xml)} {v : Val} {n n' : Xml} (h : put m its v n = some n')
    (hn : n.isElem = true) : n'.isElem = true ∧ ∀ u, n'.isTag u = n.isTag u := by
  cases hd : m.dest with
  | some p =>
    obtain ⟨q, u⟩ := p
    rw [put_tag hd] at h
    cases its with
    | none => cases h
    | some cs =>
      cases h
      exact ⟨by rw [insertAll_isElem]; exact hn, fun u => insertAll_isTag _ _ _ _⟩
  | none =>
    cases m <;> simp [Member.dest] at hd
    · rename_i t b r
      simp only [put] at h
      cases he : encBasic r v with
      | none => rw [he] at h; cases h
      | some o =>
        rw [he] at h
        cases o with
        | none => cases h; exact ⟨hn, fun _ => rfl⟩
        | some s =>
          obtain ⟨_, _, _, h4, h5⟩ := setAttr_some h hn
          exact ⟨h5, h4⟩
    · rename_i t b r
      simp only [put] at h
      cases he : encBasic r v with
      | none => rw [he] at h; cases h
      | some o =>
        rw [he] at h
        cases o with
        | none => cases h; exact ⟨hn, fun _ => rfl⟩
        | some s =>
          cases h
          cases n with
          | text _ => cases hn
          | elem t as ks => exact ⟨rfl, fun _ => rfl⟩

theorem encode_elem {ms : List Member} {fs : List (Str × Val)} {n n' : Xml} (h : encode ms fs n = some n')
    (hn : n.isElem = true) : n'.isElem = true ∧ ∀ u, n'.isTag u = n.isTag u := by
  induction ms generalizing n with
  | nil => simp only [encode] at h; cases h; exact ⟨hn, fun _ => rfl⟩
  | cons m ms ih =>
    simp only [encode] at h
    cases hp : put m (items m (field fs m.name)) (field fs m.name) n with
    | none => rw [hp] at h; cases h
    | some n1 =>
      rw [hp] at h
      obtain ⟨h1, h2⟩ := put_elem hp hn
      obtain ⟨h3, h4⟩ := ih h h1
      exact ⟨h3, fun u => (h4 u).trans (h2 u)⟩

theorem mapM_mem {α β : Type} {f : α → Option β} : ∀ {l : List α} {l' : List β}, l.mapM f = some l' →
    ∀ y ∈ l', ∃ x ∈ l, f x = some y := by
  intro l
  induction l with
  | nil => intro l' h; simp at h; subst h; simp
  | cons a l ih =>
    intro l' h y hy
    rw [List.mapM_cons] at h
    cases ha : f a with
    | none => rw [ha] at h; cases h
    | some b =>
      rw [ha] at h
      cases hl : l.mapM f with
      | none => rw [hl] at h; cases h
      | some bs =>
        rw [hl] at h
        cases h
        rcases List.mem_cons.1 hy with rfl | hy
        · exact ⟨a, by simp, ha⟩
        · obtain ⟨x, hx, hx'⟩ := ih hl y hy
          exact ⟨x, by simp [hx], hx'⟩

theorem encItem_isTag (t : Str) (o : Option Str) : ∀ c ∈ encItem t o, c.isTag t = true := by
  intro c hc
  unfold encItem at hc
  obtain ⟨s, _, rfl⟩ := List.mem_map.1 hc
  simp [Xml.isTag]

theorem encList_mem {r : Bool} {f : Val → Option (List Xml)} {v : Val} {its : List Xml} (h : encList r f v = some its) :
    ∀ c ∈ its, ∃ x cs, f x = some cs ∧ c ∈ cs := by
  intro c hc
  unfold encList at h
  split at h
  · rename_i x l
    cases hm : (x :: l).mapM f with
    | none => rw [hm] at h; cases h
    | some css =>
      rw [hm] at h
      cases h
      obtain ⟨cs, hcs, hc⟩ := List.mem_flatten.1 hc
      obtain ⟨y, _, hy⟩ := mapM_mem hm cs hcs
      exact ⟨y, cs, hy, hc⟩
  · cases r <;> simp at h; subst h; cases hc
  · cases r <;> simp at h; subst h; cases hc
  · cases h

theorem items_isTag {m : Member} {q : List Str} {u : Str} (hd : m.dest = some (q, u)) {v : Val} {its : List Xml}
    (h : items m v = some its) : ∀ c ∈ its, c.isTag u = true := by
  have hobj : ∀ (t : Str) (ms : List Member) (fs : List (Str × Val)) (x : Xml),
      encode ms fs (.elem t [] []) = some x → x.isTag t = true := by
    intro t ms fs x hx
    rw [(encode_elem hx rfl).2]
    simp [Xml.isTag]
  cases m <;> simp only [Member.dest, Option.some.injEq, Prod.mk.injEq, reduceCtorEq] at hd
  · rename_i t b r
    obtain ⟨rfl, rfl⟩ := hd
    simp only [items] at h
    cases he : encBasic r v with
    | none => rw [he] at h; cases h
    | some o => rw [he] at h; cases h; exact encItem_isTag _ _
  · rename_i t r
    obtain ⟨rfl, rfl⟩ := hd
    simp only [items] at h
    unfold encLoc at h
    split at h
    · intro c hc
      obtain ⟨p, _, hp⟩ := mapM_mem h c hc
      unfold encLang at hp
      obtain ⟨_, _, _, h4, _⟩ := setAttr_some hp rfl
      rw [h4]; simp [Xml.isTag]
    · cases r <;> simp at h; subst h; simp
    · cases r <;> simp at h; subst h; simp
    · cases h
  · rename_i t path comp b r
    obtain ⟨rfl, rfl⟩ := hd
    simp only [items] at h
    intro c hc
    obtain ⟨x, cs, hx, hc⟩ := encList_mem h c hc
    cases he : encBasic true x with
    | none => rw [he] at hx; cases hx
    | some o => rw [he] at hx; cases hx; exact encItem_isTag _ _ c hc
  · rename_i t ms r
    obtain ⟨rfl, rfl⟩ := hd
    cases v <;> simp only [items] at h <;> try (cases h)
    · cases r <;> simp at h; subst h; simp
    · rename_i fs
      cases he : encode ms fs (.elem t [] []) with
      | none => rw [he] at h; cases h
      | some x =>
        rw [he] at h
        cases h
        intro c hc
        rw [List.mem_singleton.1 hc]
        exact hobj _ _ _ _ he
  · rename_i t path comp ms r
    obtain ⟨rfl, rfl⟩ := hd
    simp only [items] at h
    intro c hc
    obtain ⟨x, cs, hx, hc⟩ := encList_mem h c hc
    cases x <;> try (cases hx)
    rename_i fs
    simp only at hx
    cases he : encode ms fs (.elem comp [] []) with
    | none => rw [he] at hx; cases hx
    | some x =>
      rw [he] at hx
      cases hx
      rw [List.mem_singleton.1 hc]
      exact hobj _ _ _ _ he

/-- The tree shows the value of the member. -/
def Sees (m : Member) (v : Val) (n : Xml) : Prop := match m with
  | .attr t _ _ => ∃ o r', encBasic r' v = some o ∧ getAttr n t = o
  | .str _ _ r => ∃ o, encBasic r v = some o ∧ (∀ s, o = some s → ∃ ks, n.kids = .text s :: ks) ∧ (o = none → n.kids = [])
  | .basic t _ _ => ∃ o r', encBasic r' v = some o ∧ (getAll n [t]).head? = (encItem t o).head?
  | m => ∃ its p, items m v = some its ∧ m.tagPath = some p ∧ getAll n p = its

/-- Nothing of the member is in the tree yet. -/
def Fresh (m : Member) (n : Xml) : Prop := match m with
  | .attr t _ _ => getAttr n t = none
  | .str _ _ _ => n.kids = []
  | m => ∀ p, m.tagPath = some p → getAll n p = []

/-- Before the member is processed. -/
def Pre (m : Member) (v : Val) (n : Xml) : Prop := Fresh m n ∨ ∃ t b r, m = .basic t b r ∧ Sees m v n

theorem put_attr {t : Str} {b : Basic} {r : Bool} {its : Option (List Xml)} {v : Val} {n n' : Xml}
    (h : put (.attr t b r) its v n = some n') (hn : n.isElem = true) :
    (∃ o, encBasic r v = some o ∧ (getAttr n t = none → getAttr n' t = o)) ∧
    (∀ a, a ≠ t → getAttr n' a = getAttr n a) ∧ n'.kids = n.kids := by
  simp only [put] at h
  cases he : encBasic r v with
  | none => rw [he] at h; cases h
  | some o =>
    rw [he] at h
    cases o with
    | none => cases h; exact ⟨⟨none, rfl, fun h => h⟩, fun _ _ => rfl, rfl⟩
    | some s =>
      obtain ⟨h1, h2, h3, _⟩ := setAttr_some h hn
      exact ⟨⟨some s, rfl, fun _ => h1⟩, h2, h3⟩

theorem put_str {t : Str} {b : Basic} {r : Bool} {its : Option (List Xml)} {v : Val} {n n' : Xml}
    (h : put (.str t b r) its v n = some n') (hn : n.isElem = true) :
    (∃ o, encBasic r v = some o ∧ n'.kids = n.kids ++ o.toList.map .text) ∧ (∀ a, getAttr n' a = getAttr n a) ∧
    ∀ u us, getAll n' (u :: us) = getAll n (u :: us) := by
  simp only [put] at h
  cases he : encBasic r v with
  | none => rw [he] at h; cases h
  | some o =>
    rw [he] at h
    cases o with
    | none => cases h; exact ⟨⟨none, rfl, by simp⟩, fun _ => rfl, fun _ _ => rfl⟩
    | some s =>
      cases h
      refine ⟨⟨some s, rfl, ?_⟩, ?_, fun u us => getAll_addText n s u us⟩
      · cases n with
        | text _ => cases hn
        | elem t as ks => simp [addKid, Xml.kids]
      · cases n with
        | text _ => cases hn
        | elem t as ks => intro a; rfl

theorem put_dest {m : Member} {q : List Str} {u : Str} (hd : m.dest = some (q, u)) {v : Val} {n n' : Xml}
    (h : put m (items m v) v n = some n') (hn : n.isElem = true) :
    ∃ its, items m v = some its ∧ getAll n' (q ++ [u]) = getAll n (q ++ [u]) ++ its ∧
      (∀ p, ¬ p <+: q ++ [u] → ¬ q ++ [u] <+: p → getAll n' p = getAll n p) ∧ (∀ a, getAttr n' a = getAttr n a) ∧
      ∀ s ks, n.kids = .text s :: ks → ∃ ks', n'.kids = .text s :: ks' := by
  rw [put_tag hd] at h
  cases hi : items m v with
  | none => rw [hi] at h; cases h
  | some its =>
    rw [hi] at h
    cases h
    have ht := items_isTag hd hi
    exact ⟨its, rfl, insertAll_same u q its ht n hn, fun p h1 h2 => insertAll_other u q p its ht h1 h2 n hn,
      fun a => insertAll_attr q a its n, fun s ks hk => insertAll_first q s its n ks hk⟩

theorem path_cons {m : Member} {p : List Str} (h : m.tagPath = some p) : ∃ t ts, p = t :: ts := by
  cases p with
  | cons t ts => exact ⟨t, ts, rfl⟩
  | nil => cases m <;> simp [Member.tagPath] at h

theorem path_dest {m : Member} {p : List Str} (h : m.tagPath = some p) : ∃ q u, m.dest = some (q, u) ∧ p = q ++ [u] := by
  cases m <;> simp [Member.tagPath] at h <;> subst h <;> simp [Member.dest]

theorem sees_nonbasic {m : Member} {v : Val} {n : Xml} {p : List Str} (hp : m.tagPath = some p)
    (hb : ∀ t b r, m ≠ .basic t b r) : Sees m v n ↔ ∃ its, items m v = some its ∧ getAll n p = its := by
  cases m <;> simp only [Member.tagPath, reduceCtorEq, Option.some.injEq] at hp
  · exact absurd rfl (hb _ _ _)
  all_goals
    subst hp
    simp [Sees, Member.tagPath]

theorem items_basic {t : Str} {b : Basic} {r : Bool} {v : Val} {its : List Xml} (h : items (.basic t b r) v = some its) :
    ∃ o, encBasic r v = some o ∧ its = encItem t o := by
  simp only [items] at h
  cases he : encBasic r v with
  | none => rw [he] at h; cases h
  | some o => rw [he] at h; cases h; exact ⟨o, rfl, rfl⟩

/-- After a member is processed the tree shows its value. -/
theorem put_sees {m : Member} {v : Val} {n n' : Xml} (hn : n.isElem = true) (hp : Pre m v n)
    (h : put m (items m v) v n = some n') : Sees m v n' := by
  cases hd : m.dest with
  | none =>
    rcases hp with hf | ⟨t, b, r, rfl, _⟩
    · cases m <;> simp only [Member.dest, reduceCtorEq] at hd
      · rename_i t b r
        obtain ⟨⟨o, h1, h2⟩, _⟩ := put_attr h hn
        exact ⟨o, r, h1, h2 hf⟩
      · rename_i t b r
        obtain ⟨⟨o, h1, h2⟩, _⟩ := put_str h hn
        have hf : n.kids = [] := hf
        rw [hf, List.nil_append] at h2
        refine ⟨o, h1, ?_, ?_⟩
        · rintro s rfl; exact ⟨[], h2⟩
        · rintro rfl; exact h2
    · cases hd
  | some x =>
    obtain ⟨q, u⟩ := x
    obtain ⟨its, h1, h2, _⟩ := put_dest hd h hn
    by_cases hb : ∃ t b r, m = .basic t b r
    · obtain ⟨t, b, r, rfl⟩ := hb
      cases hd
      obtain ⟨o, ho, rfl⟩ := items_basic h1
      refine ⟨o, r, ho, ?_⟩
      rw [List.nil_append] at h2
      rw [h2, List.head?_append]
      rcases hp with hf | ⟨_, _, _, _, hs⟩
      · have hf : getAll n [u] = [] := hf _ rfl
        rw [hf]; rfl
      · obtain ⟨o', r', ho', hh⟩ := hs
        rw [hh, encBasic_agree ho' ho, Option.or_self]
    · have hb' : ∀ t b r, m ≠ .basic t b r := fun t b r e => hb ⟨t, b, r, e⟩
      rcases hp with hf | ⟨t, b, r, e, _⟩
      · rw [sees_nonbasic (dest_path hd) hb']
        refine ⟨its, h1, ?_⟩
        have : getAll n (q ++ [u]) = [] := by
          cases m <;> simp only [Member.dest, reduceCtorEq] at hd <;> exact hf _ (dest_path hd)
        rw [h2, this, List.nil_append]
      · exact absurd e (hb' t b r)

theorem sees_kids {m : Member} {v : Val} {n n' : Xml} {p : List Str} (hp : m.tagPath = some p)
    (he : getAll n' p = getAll n p) (h : Sees m v n) : Sees m v n' := by
  by_cases hb : ∃ t b r, m = .basic t b r
  · obtain ⟨t, b, r, rfl⟩ := hb
    cases hp
    obtain ⟨o, r', h1, h2⟩ := h
    exact ⟨o, r', h1, by rw [he]; exact h2⟩
  · have hb' : ∀ t b r, m ≠ .basic t b r := fun t b r e => hb ⟨t, b, r, e⟩
    rw [sees_nonbasic hp hb'] at h ⊢
    obtain ⟨its, h1, h2⟩ := h
    exact ⟨its, h1, by rw [he]; exact h2⟩

theorem attr_or_str_or_tag (m : Member) : (∃ t b r, m = .attr t b r) ∨ (∃ t b r, m = .str t b r) ∨
    ∃ q u, m.dest = some (q, u) := by
  cases m <;> simp [Member.dest]

theorem redeclared_form {m k : Member} (h : Redeclared m k) : ∃ t b r q, m = .basic t b r ∧ k = .basic t b q := by
  cases m <;> cases k <;> simp only [Redeclared] at h
  obtain ⟨rfl, rfl⟩ := h
  exact ⟨_, _, _, _, rfl, rfl⟩

/-- Tags of a member are not affected by another one that is apart. -/
theorem put_apart {m k : Member} {v : Val} {n n' : Xml} {p : List Str} (hn : n.isElem = true) (hp : k.tagPath = some p)
    (ha : ∀ q u, m.dest = some (q, u) → ¬ p <+: q ++ [u] ∧ ¬ q ++ [u] <+: p) (h : put m (items m v) v n = some n') :
    getAll n' p = getAll n p := by
  obtain ⟨t, ts, rfl⟩ := path_cons hp
  rcases attr_or_str_or_tag m with ⟨_, _, _, rfl⟩ | ⟨_, _, _, rfl⟩ | ⟨q, u, hd⟩
  · exact getAll_kids (put_attr h hn).2.2 t ts
  · exact (put_str h hn).2.2 t ts
  · obtain ⟨its, _, _, h3, _⟩ := put_dest hd h hn
    exact h3 _ (ha q u hd).1 (ha q u hd).2

theorem put_redeclared {t : Str} {b : Basic} {r q : Bool} {v : Val} {n n' : Xml} (hn : n.isElem = true)
    (h : put (.basic t b r) (items (.basic t b r) v) v n = some n') (hs : Sees (.basic t b q) v n) :
    Sees (.basic t b q) v n' := by
  obtain ⟨its, h1, h2, _⟩ := put_dest (m := .basic t b r) rfl h hn
  obtain ⟨o, ho, rfl⟩ := items_basic h1
  obtain ⟨o', r', ho', hh⟩ := hs
  refine ⟨o, r, ho, ?_⟩
  rw [List.nil_append] at h2
  rw [h2, List.head?_append, hh, encBasic_agree ho' ho, Option.or_self]

/-- What the tree shows stays when later members are processed. -/
theorem put_keeps {m k : Member} {v w : Val} {n n' : Xml} (hn : n.isElem = true) (ha : Apart k m)
    (hv : Redeclared k m → w = v) (hs : Sees k w n) (h : put m (items m v) v n = some n') : Sees k w n' := by
  rcases ha with hr | ⟨hname, htf, hpa⟩
  · have := hv hr
    subst this
    obtain ⟨t, b, r, q, rfl, rfl⟩ := redeclared_form hr
    exact put_redeclared hn h hs
  · rcases attr_or_str_or_tag k with ⟨t, b, r, rfl⟩ | ⟨t, b, r, rfl⟩ | ⟨q, u, hd⟩
    · obtain ⟨o, r', h1, h2⟩ := hs
      refine ⟨o, r', h1, ?_⟩
      rcases attr_or_str_or_tag m with ⟨t', b', r', rfl⟩ | ⟨_, _, _, rfl⟩ | ⟨q, u, hd⟩
      · rw [(put_attr h hn).2.1 t (fun e => hname (by simp [Member.name, Member.token, e]))]; exact h2
      · rw [(put_str h hn).2.1]; exact h2
      · obtain ⟨its, _, _, _, h4, _⟩ := put_dest hd h hn
        rw [h4]; exact h2
    · obtain ⟨o, h1, h2, h3⟩ := hs
      refine ⟨o, h1, ?_⟩
      rcases htf with hat | ⟨hr, hno⟩
      · cases m <;> try (cases hat; done)
        rw [(put_attr h hn).2.2]; exact ⟨h2, h3⟩
      · subst hr
        obtain ⟨s, rfl⟩ := encBasic_true h1
        obtain ⟨ks, hk⟩ := h2 s rfl
        rcases attr_or_str_or_tag m with ⟨t', b', r', rfl⟩ | ⟨_, _, _, rfl⟩ | ⟨q, u, hd⟩
        · rw [(put_attr h hn).2.2]; exact ⟨h2, h3⟩
        · exact absurd rfl (hno _ _ _)
        · obtain ⟨its, _, _, _, _, h5⟩ := put_dest hd h hn
          obtain ⟨ks', hk'⟩ := h5 s ks hk
          refine ⟨?_, fun e => by cases e⟩
          rintro s' e
          cases e
          exact ⟨ks', hk'⟩
    · refine sees_kids (dest_path hd) (put_apart hn (dest_path hd) (fun q' u' hd' => ?_) h) hs
      exact hpa _ _ (dest_path hd) (dest_path hd')

/-- Processing a member leaves later ones as they are. -/
theorem put_pre {m k : Member} {v w : Val} {n n' : Xml} (hn : n.isElem = true) (ha : Apart m k)
    (hv : Redeclared m k → w = v) (hs : Pre k w n) (h : put m (items m v) v n = some n') : Pre k w n' := by
  rcases ha with hr | ⟨hname, htf, hpa⟩
  · have := hv hr
    subst this
    obtain ⟨t, b, r, q, rfl, rfl⟩ := redeclared_form hr
    refine .inr ⟨t, b, q, rfl, ?_⟩
    rcases hs with hf | ⟨_, _, _, _, hs⟩
    · obtain ⟨its, h1, h2, _⟩ := put_dest (m := .basic t b r) rfl h hn
      obtain ⟨o, ho, rfl⟩ := items_basic h1
      refine ⟨o, r, ho, ?_⟩
      rw [List.nil_append] at h2
      have hf : getAll n [t] = [] := hf _ rfl
      rw [h2, hf]; rfl
    · exact put_redeclared hn h hs
  · rcases hs with hf | ⟨t, b, r, rfl, hs⟩
    · refine .inl ?_
      rcases attr_or_str_or_tag k with ⟨t, b, r, rfl⟩ | ⟨t, b, r, rfl⟩ | ⟨q, u, hd⟩
      · have hf : getAttr n t = none := hf
        show getAttr n' t = none
        rcases attr_or_str_or_tag m with ⟨t', b', r', rfl⟩ | ⟨_, _, _, rfl⟩ | ⟨q, u, hd⟩
        · rw [(put_attr h hn).2.1 t (fun e => hname (by simp [Member.name, Member.token, e]))]; exact hf
        · rw [(put_str h hn).2.1]; exact hf
        · obtain ⟨its, _, _, _, h4, _⟩ := put_dest hd h hn
          rw [h4]; exact hf
      · have hf : n.kids = [] := hf
        show n'.kids = []
        rcases attr_or_str_or_tag m with ⟨t', b', r', rfl⟩ | ⟨_, _, _, rfl⟩ | ⟨q, u, hd⟩
        · rw [(put_attr h hn).2.2]; exact hf
        · rcases htf with hx | ⟨_, hno⟩
          · cases hx
          · exact absurd rfl (hno _ _ _)
        · cases m <;> simp only [Member.dest, reduceCtorEq] at hd <;> cases htf
      · have hk := put_apart (k := k) hn (dest_path hd) (fun q' u' hd' =>
          ⟨(hpa _ _ (dest_path hd') (dest_path hd)).2, (hpa _ _ (dest_path hd') (dest_path hd)).1⟩) h
        have hf' : ∀ p, k.tagPath = some p → getAll n p = [] := by
          cases k <;> simp only [Member.dest, reduceCtorEq] at hd <;> exact hf
        have : ∀ p, k.tagPath = some p → getAll n' p = [] := by
          intro p hp
          rw [dest_path hd] at hp
          cases hp
          rw [hk]; exact hf' _ (dest_path hd)
        cases k <;> simp only [Member.dest, reduceCtorEq] at hd <;> exact this
    · refine .inr ⟨t, b, r, rfl, sees_kids rfl (put_apart (k := .basic t b r) hn rfl (fun q' u' hd' => ?_) h) hs⟩
      exact ⟨(hpa _ _ (dest_path hd') rfl).2, (hpa _ _ (dest_path hd') rfl).1⟩

/-- Everything that was encoded is in the tree. -/
theorem encode_sees {fs : List (Str × Val)} : ∀ {ms : List Member} {n n' : Xml}, n.isElem = true → WellFormed ms →
    (∀ k ∈ ms, Pre k (field fs k.name) n) → encode ms fs n = some n' →
    (∀ k ∈ ms, Sees k (field fs k.name) n') ∧
    ∀ k, Sees k (field fs k.name) n → (∀ m ∈ ms, Apart k m) → Sees k (field fs k.name) n' := by
  have hsame : ∀ {m k : Member}, Redeclared m k → field fs m.name = field fs k.name := by
    intro m k hr
    obtain ⟨t, b, r, q, rfl, rfl⟩ := redeclared_form hr
    rfl
  intro ms
  induction ms with
  | nil =>
    intro n n' _ _ _ h
    simp only [encode] at h
    cases h
    exact ⟨by simp, fun k hk _ => hk⟩
  | cons m ms ih =>
    intro n n' hn hw hpre h
    simp only [WellFormed] at hw
    obtain ⟨hap, _, hw⟩ := hw
    simp only [encode] at h
    cases hp : put m (items m (field fs m.name)) (field fs m.name) n with
    | none => rw [hp] at h; cases h
    | some n1 =>
      rw [hp] at h
      have hn1 := (put_elem hp hn).1
      have hm : Sees m (field fs m.name) n1 := put_sees hn (hpre m (by simp)) hp
      have hpre1 : ∀ k ∈ ms, Pre k (field fs k.name) n1 := fun k hk =>
        put_pre hn (hap k hk) (fun hr => (hsame hr).symm) (hpre k (by simp [hk])) hp
      obtain ⟨h1, h2⟩ := ih hn1 hw hpre1 h
      refine ⟨?_, ?_⟩
      · intro k hk
        rcases List.mem_cons.1 hk with rfl | hk
        · exact h2 k hm hap
        · exact h1 k hk
      · intro k hk ha
        exact h2 k (put_keeps hn (ha m (by simp)) hsame hk hp) (fun m hm => ha m (by simp [hm]))

theorem pre_empty (m : Member) (v : Val) (t : Str) : Pre m v (.elem t [] []) := by
  refine .inl ?_
  have : ∀ p, m.tagPath = some p → getAll (.elem t [] []) p = [] := by
    intro p hp
    obtain ⟨u, us, rfl⟩ := path_cons hp
    rw [getAll_cons]; rfl
  cases m <;> first | rfl | exact this

/-! ## Reading back -/

theorem mapM_back {α : Type} {f : Val → Option (List Xml)} {g : Xml → Option α} {h : Val → α} : ∀ {l : List Val} {css : List (List Xml)},
    l.mapM f = some css → (∀ x ∈ l, ∀ cs, f x = some cs → ∃ y, cs = [y] ∧ g y = some (h x)) →
    css.flatten.mapM g = some (l.map h) := by
  intro l
  induction l with
  | nil => intro css hm _; simp at hm; subst hm; rfl
  | cons x l ih =>
    intro css hm hb
    rw [List.mapM_cons] at hm
    cases hx : f x with
    | none => rw [hx] at hm; cases hm
    | some cs =>
      rw [hx] at hm
      cases hl : l.mapM f with
      | none => rw [hl] at hm; cases hm
      | some css' =>
        rw [hl] at hm
        cases hm
        obtain ⟨y, rfl, hy⟩ := hb x (by simp) cs hx
        have := ih hl (fun x hx => hb x (by simp [hx]))
        rw [List.flatten_cons, List.singleton_append, List.mapM_cons, hy, this]
        rfl

theorem getNode_dummy {x : Xml} {t : Str} (h : x.isTag t = true) : getNode (dummy x) t = some x := by
  unfold getNode dummy
  simp [Xml.kids, h]

theorem encList_list {r : Bool} {f : Val → Option (List Xml)} {l : List Val} {its : List Xml}
    (h : encList r f (.list l) = some its) : ∃ css, l.mapM f = some css ∧ its = css.flatten := by
  cases l with
  | nil =>
    cases r <;> simp [encList] at h
    exact ⟨[], rfl, h⟩
  | cons x l =>
    simp only [encList] at h
    cases hm : (x :: l).mapM f with
    | none => rw [hm] at h; cases h
    | some css => rw [hm] at h; cases h; exact ⟨css, rfl, rfl⟩

theorem list_back {r : Bool} {f : Val → Option (List Xml)} {g : Xml → Option Val} {l : List Val} {its : List Xml}
    (h : encList r f (.list l) = some its) (hr : r = true → l ≠ [])
    (hb : ∀ x ∈ l, ∀ cs, f x = some cs → ∃ y, cs = [y] ∧ g (dummy y) = some x) :
    decList r g its = some (.list l) := by
  obtain ⟨css, h1, rfl⟩ := encList_list h
  have := mapM_back (g := fun x => g (dummy x)) (h := id) h1 hb
  unfold decList
  rw [this, List.map_id]
  have : ¬ (css.flatten.isEmpty = true ∧ r = true) := by
    rintro ⟨he, hr'⟩
    have he : css.flatten = [] := by simpa using he
    rw [he] at this
    cases l with
    | nil => exact hr hr' rfl
    | cons x l =>
      have h2 : ([] : List Xml).mapM (fun x => g (dummy x)) = some [] := rfl
      rw [h2] at this
      cases this
  rw [if_neg this]
  rfl

theorem setLang_new (d : List (Str × Str)) (k c : Str) (h : k ∉ d.map (·.1)) : setLang d k c = d ++ [(k, c)] := by
  unfold setLang
  rw [if_neg]
  simp only [List.any_eq_true, decide_eq_true_eq, not_exists, not_and]
  intro p hp e
  exact h (List.mem_map.2 ⟨p, hp, e⟩)

theorem langs_back (t : Str) : ∀ (e d : List (Str × Str)) (its : List Xml), ((d ++ e).map (·.1)).Nodup →
    (∀ p ∈ e, p.1 ≠ [] ∧ Ascii p.1 ∧ Solid p.2) → e.mapM (encLang t) = some its →
    decLangs its d = some (d ++ e) := by
  intro e
  induction e with
  | nil => intro d its _ _ h; simp at h; subst h; simp [decLangs]
  | cons p e ih =>
    intro d its hn hs h
    rw [List.mapM_cons] at h
    cases hp : encLang t p with
    | none => rw [hp] at h; cases h
    | some x =>
      rw [hp] at h
      cases hl : e.mapM (encLang t) with
      | none => rw [hl] at h; cases h
      | some xs =>
        rw [hl] at h
        cases h
        obtain ⟨h1, _, h3, _, _⟩ := setAttr_some hp rfl
        obtain ⟨hk, _, hsol⟩ := hs p (by simp)
        have htext : nodeText x = some (some p.2) := by
          unfold nodeText
          rw [h3]
          simp [Xml.kids, strip_solid _ hsol]
        have hlang : langOf x = p.1 := by
          unfold langOf
          rw [h1]
          cases hp1 : p.1 with
          | nil => exact absurd hp1 hk
          | cons c s => rfl
        have hne := hsol.1
        have hnew : p.1 ∉ d.map (·.1) := by
          rw [List.map_append, List.nodup_append] at hn
          intro hx
          exact hn.2.2 _ hx p.1 (by simp) rfl
        have step : decLangs (x :: xs) d = decLangs xs (setLang d (langOf x) p.2) := by
          rw [decLangs, htext]
          cases hp2 : p.2 with
          | nil => exact absurd hp2 hne
          | cons c s => rfl
        rw [step, hlang, setLang_new d p.1 p.2 hnew]
        have := ih (d ++ [p]) xs (by simpa using hn) (fun q hq => hs q (by simp [hq])) hl
        simpa using this

theorem field_mem {fs : List (Str × Val)} (hf : Functional fs) {p : Str × Val} (hp : p ∈ fs) : field fs p.1 = p.2 := by
  unfold field
  cases h : fs.find? (fun q => q.1 = p.1) with
  | none =>
    rw [List.find?_eq_none] at h
    exact absurd (decide_eq_true rfl) (h p hp)
  | some q =>
    exact hf q (List.mem_of_find?_eq_some h) p hp (by simpa using List.find?_some h)

mutual
/-- A member is read as it was written. -/
theorem member_back : ∀ (m : Member) (v : Val) (n : Xml), Sees m v n → TypedM Safe SafeText m v → WellFormedM m →
    decM m n = some v
  | .attr t b r, v, n, hs, ht, _ => by
    obtain ⟨o, r', h1, h2⟩ := hs
    simp only [decM, h2]
    rcases ht with ⟨rfl, rfl⟩ | ht
    · have : o = none := by
        have h3 : encBasic false .none = some none := rfl
        exact encBasic_agree h1 h3
      subst this; rfl
    · obtain ⟨s, e1, e2, e3, _⟩ := safe_text ht r'
      rw [e1] at h1
      cases h1
      rw [cons_text e2]; exact e3
  | .str t b r, v, n, hs, ht, _ => by
    obtain ⟨o, h1, h2, h3⟩ := hs
    simp only [decM]
    rcases ht with ⟨rfl, rfl⟩ | ht
    · have : o = none := by
        have h3 : encBasic false .none = some none := rfl
        exact encBasic_agree h1 h3
      subst this
      unfold nodeText
      rw [h3 rfl]; rfl
    · obtain ⟨s, e1, e2, e3, e4, _⟩ := safe_text ht r
      rw [e1] at h1
      cases h1
      obtain ⟨ks, hk⟩ := h2 s rfl
      unfold nodeText
      rw [hk]
      show decBasic b r (some (strip s)) = some v
      rw [e4 rfl, cons_text e2]; exact e3
  | .basic t b r, v, n, hs, ht, _ => by
    obtain ⟨o, r', h1, h2⟩ := hs
    simp only [decM, decTag]
    rw [getNode_head, h2]
    rcases ht with ⟨rfl, rfl⟩ | ht
    · have : o = none := by
        have h3 : encBasic false .none = some none := rfl
        exact encBasic_agree h1 h3
      subst this; rfl
    · obtain ⟨s, e1, e2, e3, e4, _⟩ := safe_text ht r'
      rw [e1] at h1
      cases h1
      show decBasic b r (some (strip s)) = some v
      rw [e4 rfl, cons_text e2]; exact e3
  | .loc t r, v, n, hs, ht, _ => by
    obtain ⟨d, rfl, ⟨hmap, hsafe⟩, hr⟩ := ht
    obtain ⟨its, p, h1, h2, h3⟩ := hs
    cases h2
    simp only [decM, h3]
    simp only [items] at h1
    cases d with
    | nil =>
      cases r with
      | true => exact absurd rfl (hr rfl)
      | false =>
        simp [encLoc] at h1
        subst h1
        rfl
    | cons q d =>
      simp only [encLoc] at h1
      have := langs_back t (q :: d) [] its hmap hsafe h1
      unfold decLoc
      rw [this]
      have hne : ¬ (its.isEmpty = true ∧ r = true) := by
        rintro ⟨he, _⟩
        have he : its = [] := by simpa using he
        subst he
        cases this
      rw [if_neg hne]; rfl
  | .basics t path comp b r, v, n, hs, ht, _ => by
    obtain ⟨l, rfl, hb, hr⟩ := ht
    obtain ⟨its, p, h1, h2, h3⟩ := hs
    cases h2
    simp only [decM, h3]
    simp only [items] at h1
    refine list_back h1 hr (fun x hx cs hcs => ?_)
    obtain ⟨s, e1, e2, e3, e4, _⟩ := safe_text (hb x hx) true
    rw [e1] at hcs
    cases hcs
    refine ⟨.elem comp [] [.text s], rfl, ?_⟩
    unfold decTag
    rw [getNode_dummy (by simp [Xml.isTag])]
    show decBasic b true (some (strip s)) = some x
    rw [e4 rfl, cons_text e2]; exact e3
  | .cls t ms r, v, n, hs, ht, hw => by
    obtain ⟨its, p, h1, h2, h3⟩ := hs
    cases h2
    simp only [decM]
    rw [getNode_head, h3]
    simp only [items] at h1
    rcases ht with ⟨rfl, rfl⟩ | ⟨fs, rfl, ht, hf⟩
    · simp at h1
      subst h1; rfl
    · simp only at h1
      cases he : encode ms fs (.elem t [] []) with
      | none => rw [he] at h1; cases h1
      | some x =>
        rw [he] at h1
        cases h1
        simp only [WellFormedM] at hw
        have hsees := (encode_sees rfl hw (fun k _ => pre_empty k _ t) he).1
        have := all_back ms fs fs x hsees (fun p hp => field_mem hf hp) ht hw
        show (decode ms x).map Val.obj = _
        rw [this]; rfl
  | .clss t path comp ms r, v, n, hs, ht, hw => by
    obtain ⟨l, rfl, hb, hr⟩ := ht
    obtain ⟨its, p, h1, h2, h3⟩ := hs
    cases h2
    simp only [decM, h3]
    simp only [items] at h1
    refine list_back h1 hr (fun x hx cs hcs => ?_)
    obtain ⟨fs, rfl, ht, hf⟩ := hb x hx
    simp only at hcs
    cases he : encode ms fs (.elem comp [] []) with
    | none => rw [he] at hcs; cases hcs
    | some y =>
      rw [he] at hcs
      cases hcs
      refine ⟨y, rfl, ?_⟩
      have hy : y.isTag comp = true := by rw [(encode_elem he rfl).2]; simp [Xml.isTag]
      rw [getNode_dummy hy]
      simp only [WellFormedM] at hw
      have hsees := (encode_sees rfl hw (fun k _ => pre_empty k _ comp) he).1
      have := all_back ms fs fs y hsees (fun p hp => field_mem hf hp) ht hw
      show (decode ms y).map Val.obj = _
      rw [this]; rfl

/-- The members of an object are. -/
theorem all_back : ∀ (ms : List Member) (fs gs : List (Str × Val)) (n : Xml), (∀ m ∈ ms, Sees m (field fs m.name) n) →
    (∀ p ∈ gs, field fs p.1 = p.2) → Typed Safe SafeText ms gs → WellFormed ms → decode ms n = some gs
  | [], _, gs, _, _, _, ht, _ => by
    simp only [Typed] at ht
    subst ht; rfl
  | m :: ms, fs, gs, n, hs, hf, ht, hw => by
    simp only [Typed] at ht
    obtain ⟨v, rest, rfl, hv, ht⟩ := ht
    simp only [WellFormed] at hw
    have e : field fs m.name = v := hf (m.name, v) (by simp)
    have h1 := member_back m v n (e ▸ hs m (by simp)) hv hw.2.1
    have h2 := all_back ms fs rest n (fun m hm => hs m (by simp [hm])) (fun p hp => hf p (by simp [hp])) ht hw.2.2
    simp only [decode, h1, h2]
    rfl
end

/-! ## Layout -/

theorem dropWhile_blank {a s : Str} (h : ∀ c ∈ a, uspace c = true) : (a ++ s).dropWhile uspace = s.dropWhile uspace := by
  induction a with
  | nil => rfl
  | cons c a ih =>
    rw [List.cons_append, List.dropWhile_cons_of_pos (h c (by simp))]
    exact ih (fun c hc => h c (by simp [hc]))

theorem rstrip_blank {s b : Str} (h : ∀ c ∈ b, uspace c = true) : rstrip uspace (s ++ b) = rstrip uspace s := by
  unfold rstrip
  rw [List.reverse_append, dropWhile_blank (by simpa using h)]

theorem dropWhile_append_cases (s b : Str) : (s ++ b).dropWhile uspace = s.dropWhile uspace ++ b ∨
    (s.dropWhile uspace = [] ∧ (s ++ b).dropWhile uspace = b.dropWhile uspace) := by
  induction s with
  | nil => exact .inr ⟨rfl, rfl⟩
  | cons c s ih =>
    by_cases h : uspace c = true
    · rw [List.cons_append, List.dropWhile_cons_of_pos h, List.dropWhile_cons_of_pos h]; exact ih
    · rw [List.cons_append, List.dropWhile_cons_of_neg h, List.dropWhile_cons_of_neg h]; exact .inl rfl

theorem dropWhile_all {b : Str} (h : ∀ c ∈ b, uspace c = true) : b.dropWhile uspace = [] := by
  have := dropWhile_blank (s := []) h
  simpa using this

theorem strip_blank {a s b : Str} (ha : ∀ c ∈ a, uspace c = true) (hb : ∀ c ∈ b, uspace c = true) :
    strip (a ++ s ++ b) = strip s := by
  unfold strip
  rw [List.append_assoc, dropWhile_blank ha]
  rcases dropWhile_append_cases s b with h | ⟨h1, h2⟩
  · rw [h, rstrip_blank hb]
  · rw [h2, h1, dropWhile_all hb]

theorem strip_all {b : Str} (h : ∀ c ∈ b, uspace c = true) : strip b = [] := by
  unfold strip; rw [dropWhile_all h]; rfl

inductive LaidList : List Xml → List Xml → Prop
  | nil : LaidList [] []
  | cons (x x' : Xml) (l l' : List Xml) (h : Laid x x') (hs : LaidList l l') : LaidList (x :: l) (x' :: l')

theorem laid_isTag {x x' : Xml} (h : Laid x x') (t : Str) : x'.isTag t = x.isTag t := by
  cases h <;> rfl

theorem laid_attr {x x' : Xml} (h : Laid x x') (a : Str) : getAttr x' a = getAttr x a := by
  cases h <;> rfl

theorem laidList_append {l l' k k' : List Xml} (h : LaidList l l') (hk : LaidList k k') : LaidList (l ++ k) (l' ++ k') := by
  induction h with
  | nil => exact hk
  | cons x x' l l' h _ ih => exact .cons _ _ _ _ h ih

theorem laid_kids {x x' : Xml} (h : Laid x x') : LaidKids x.kids x'.kids := by
  cases h with
  | text => exact .nil
  | elem t as ks ks' h => exact h

theorem laidKids_filter (t : Str) : ∀ {ks ks' : List Xml}, LaidKids ks ks' →
    LaidList (ks.filter (Xml.isTag t)) (ks'.filter (Xml.isTag t))
  | _, _, .nil => .nil
  | _, _, .text s x' ks ks' h hs => by
    have : x'.isTag t = false := (laid_isTag h t).trans rfl
    rw [List.filter_cons_of_neg (by simp [Xml.isTag]), List.filter_cons_of_neg (by simp [this])]
    exact laidKids_filter t hs
  | _, _, .elem u as cs x' ks ks' h hs => by
    have e := laid_isTag h t
    have ih := laidKids_filter t hs
    by_cases ht : (Xml.elem u as cs).isTag t = true
    · rw [List.filter_cons_of_pos ht, List.filter_cons_of_pos (by rw [e]; exact ht)]
      exact .cons _ _ _ _ h ih
    · rw [List.filter_cons_of_neg ht, List.filter_cons_of_neg (by rw [e]; exact ht)]
      exact ih
  | _, _, .blank b ks ks' hb _ hs => by
    obtain ⟨s, rfl, _⟩ := hb
    rw [List.filter_cons_of_neg (by simp [Xml.isTag])]
    exact laidKids_filter t hs

theorem laid_getAll : ∀ (p : List Str) {n n' : Xml}, Laid n n' → LaidList (getAll n p) (getAll n' p) := by
  intro p
  induction p with
  | nil => intro n n' h; exact .cons _ _ _ _ h .nil
  | cons t ts ih =>
    intro n n' h
    rw [getAll_cons, getAll_cons]
    have hk := laidKids_filter t (laid_kids h)
    unfold getTags
    generalize n.kids.filter (Xml.isTag t) = l at hk
    generalize n'.kids.filter (Xml.isTag t) = l' at hk
    induction hk with
    | nil => exact .nil
    | cons x x' l l' h _ ih' =>
      rw [List.flatMap_cons, List.flatMap_cons]
      exact laidList_append (ih h) ih'

theorem laid_getNode {n n' : Xml} (h : Laid n n') (t : Str) : (getNode n t = none ∧ getNode n' t = none) ∨
    ∃ x x', getNode n t = some x ∧ getNode n' t = some x' ∧ Laid x x' := by
  rw [getNode_head, getNode_head]
  have := laid_getAll [t] h
  generalize getAll n [t] = l at this
  generalize getAll n' [t] = l' at this
  cases this with
  | nil => exact .inl ⟨rfl, rfl⟩
  | cons x x' l l' h _ => exact .inr ⟨x, x', rfl, rfl, h⟩

theorem blankKids {ks' : List Xml} (h : LaidKids [] ks') : ks' = [] ∨ ∃ s l, ks' = .text s :: l ∧ strip s = [] := by
  cases h with
  | nil => exact .inl rfl
  | blank b _ k hb _ _ =>
    obtain ⟨s, rfl, hs⟩ := hb
    exact .inr ⟨s, k, rfl, strip_all hs⟩

theorem laid_text {n n' : Xml} (h : Laid n n') {o : Option Str} (hn : nodeText n = some o) :
    nodeText n' = some o ∨ (o = none ∧ nodeText n' = some (some [])) := by
  have hk := laid_kids h
  unfold nodeText at hn ⊢
  cases hks : n.kids with
  | nil =>
    rw [hks] at hn hk
    cases hn
    rcases blankKids hk with e | ⟨s, l, e, es⟩
    · rw [e]; exact .inl rfl
    · rw [e]; exact .inr ⟨rfl, by simp only [es]⟩
  | cons x ks =>
    rw [hks] at hn hk
    cases x with
    | elem t as cs => cases hn
    | text s =>
      cases hn
      refine .inl ?_
      generalize n'.kids = l at hk ⊢
      cases hk with
      | text s x' ks k' h hs =>
        cases h with
        | text a s b ha hb => simp only [strip_blank ha hb]
      | blank b _ _ hb hno _ => exact absurd rfl (hno s ks)

theorem laid_decText {n n' : Xml} (h : Laid n n') (b : Basic) (r : Bool) {v : Val}
    (hn : (nodeText n).bind (decBasic b r) = some v) : (nodeText n').bind (decBasic b r) = some v := by
  cases ht : nodeText n with
  | none => rw [ht] at hn; cases hn
  | some o =>
    rw [ht] at hn
    rcases laid_text h ht with e | ⟨rfl, e⟩
    · rw [e]; exact hn
    · rw [e]; exact hn

theorem laid_decTag {n n' : Xml} (h : Laid n n') (t : Str) (b : Basic) (r : Bool) {v : Val} (hn : decTag t b r n = some v) :
    decTag t b r n' = some v := by
  unfold decTag at hn ⊢
  rcases laid_getNode h t with ⟨e1, e2⟩ | ⟨x, x', e1, e2, hx⟩
  · rw [e1] at hn; rw [e2]; exact hn
  · rw [e1] at hn; rw [e2]; exact laid_decText hx b r hn

theorem laid_dummy {x x' : Xml} (h : Laid x x') : Laid (dummy x) (dummy x') := by
  refine .elem _ _ _ _ ?_
  cases x with
  | text s => exact .text _ _ _ _ h .nil
  | elem t as ks => exact .elem _ _ _ _ _ _ h .nil

theorem laid_langs {l l' : List Xml} (h : LaidList l l') : ∀ {d e : List (Str × Str)}, decLangs l d = some e →
    decLangs l' d = some e := by
  induction h with
  | nil => intro d e h; exact h
  | cons x x' l l' hx _ ih =>
    intro d e h
    unfold decLangs at h ⊢
    have hl : langOf x' = langOf x := by unfold langOf; rw [laid_attr hx]
    cases ht : nodeText x with
    | none => rw [ht] at h; cases h
    | some o =>
      cases o with
      | none => rw [ht] at h; cases h
      | some s =>
        cases s with
        | nil => rw [ht] at h; cases h
        | cons c s =>
          rw [ht] at h
          rcases laid_text hx ht with e | ⟨e, _⟩
          · rw [e, hl]; exact ih h
          · cases e

theorem laidList_empty {l l' : List Xml} (h : LaidList l l') : l'.isEmpty = l.isEmpty := by
  cases h <;> rfl

theorem laid_decList {r : Bool} {g : Xml → Option Val} (hg : ∀ x x' w, Laid x x' → g x = some w → g x' = some w)
    {l l' : List Xml} (h : LaidList l l') {v : Val} (hv : decList r g l = some v) : decList r g l' = some v := by
  unfold decList at hv ⊢
  rw [laidList_empty h]
  split at hv
  · cases hv
  · rename_i hne
    rw [if_neg hne]
    cases hm : l.mapM (fun x => g (dummy x)) with
    | none => rw [hm] at hv; cases hv
    | some vs =>
      rw [hm] at hv
      have : l'.mapM (fun x => g (dummy x)) = some vs := by
        clear hne hv
        induction h generalizing vs with
        | nil => exact hm
        | cons x x' l l' hx _ ih =>
          rw [List.mapM_cons] at hm ⊢
          cases h1 : g (dummy x) with
          | none => rw [h1] at hm; cases hm
          | some w =>
            rw [h1] at hm
            rw [hg _ _ w (laid_dummy hx) h1]
            cases h2 : l.mapM (fun x => g (dummy x)) with
            | none => rw [h2] at hm; cases hm
            | some ws =>
              rw [h2] at hm
              rw [ih ws h2]
              exact hm
      rw [this]; exact hv

mutual
theorem laid_decM : ∀ (m : Member) {n n' : Xml} {v : Val}, Laid n n' → decM m n = some v → decM m n' = some v
  | .attr t b r, n, n', v, h, hn => by
    simp only [decM] at hn ⊢
    rw [laid_attr h]; exact hn
  | .str t b r, n, n', v, h, hn => by
    simp only [decM] at hn ⊢
    exact laid_decText h b r hn
  | .basic t b r, n, n', v, h, hn => by
    simp only [decM] at hn ⊢
    exact laid_decTag h t b r hn
  | .loc t r, n, n', v, h, hn => by
    simp only [decM, decLoc] at hn ⊢
    have hl := laid_getAll [t] h
    rw [laidList_empty hl]
    split at hn
    · cases hn
    · rename_i hne
      rw [if_neg hne]
      cases hd : decLangs (getAll n [t]) [] with
      | none => rw [hd] at hn; cases hn
      | some d => rw [hd] at hn; rw [laid_langs hl hd]; exact hn
  | .basics t path comp b r, n, n', v, h, hn => by
    simp only [decM] at hn ⊢
    exact laid_decList (fun x x' w hx hw => laid_decTag hx comp b true hw) (laid_getAll _ h) hn
  | .cls t ms r, n, n', v, h, hn => by
    simp only [decM] at hn ⊢
    rcases laid_getNode h t with ⟨e1, e2⟩ | ⟨x, x', e1, e2, hx⟩
    · rw [e1] at hn; rw [e2]; exact hn
    · rw [e1] at hn; rw [e2]
      simp only at hn ⊢
      cases hd : decode ms x with
      | none => rw [hd] at hn; cases hn
      | some fs => rw [hd] at hn; rw [laid_decode ms hx hd]; exact hn
  | .clss t path comp ms r, n, n', v, h, hn => by
    simp only [decM] at hn ⊢
    refine laid_decList (fun x x' w hx hw => ?_) (laid_getAll _ h) hn
    rcases laid_getNode hx comp with ⟨e1, e2⟩ | ⟨y, y', e1, e2, hy⟩
    · rw [e1] at hw; cases hw
    · rw [e1] at hw; rw [e2]
      simp only at hw ⊢
      cases hd : decode ms y with
      | none => rw [hd] at hw; cases hw
      | some fs => rw [hd] at hw; rw [laid_decode ms hy hd]; exact hw

theorem laid_decode : ∀ (ms : List Member) {n n' : Xml} {fs : List (Str × Val)}, Laid n n' → decode ms n = some fs →
    decode ms n' = some fs
  | [], _, _, _, _, hn => by
    simp only [decode] at hn ⊢; exact hn
  | m :: ms, n, n', fs, h, hn => by
    simp only [decode] at hn ⊢
    cases h1 : decM m n with
    | none => rw [h1] at hn; cases hn
    | some v =>
      rw [h1] at hn
      rw [laid_decM m h h1]
      cases h2 : decode ms n with
      | none => simp [h2] at hn
      | some gs =>
        simp only [h2] at hn
        simp only [Option.bind_some, laid_decode ms h h2]
        exact hn
end

/-! ## C51 -/

/-- C51, full statement: what a class wrote reads as the same object. -/
def RoundTripFull : Prop := ∀ (lang tag : Str) (ms : List Member) (fs : List (Str × Val)) (n : Xml), WellFormed ms →
  Functional fs → Typed Any IsMap ms fs → write lang tag ms fs = some n → read lang ms n = some fs

/-- C51 for safe values and any layout of the file. -/
theorem round_trip_partial (lang tag : Str) (ms : List Member) (fs : List (Str × Val)) (n n' : Xml) (hw : WellFormed ms)
    (hf : Functional fs) (ht : Typed Safe SafeText ms fs) (h : write lang tag ms fs = some n) (hl : Laid n n') :
    read lang ms n' = some fs := by
  unfold write at h
  split at h
  · rename_i hv
    have hsees := (encode_sees rfl hw (fun k _ => pre_empty k _ tag) h).1
    have hd := all_back ms fs fs n hsees (fun p hp => field_mem hf hp) ht hw
    unfold read
    rw [laid_decode ms hl hd]
    simp only [hv, if_true]
  · cases h

theorem not_round_trip {tag : Str} {ms : List Member} {fs gs : List (Str × Val)} {n : Xml} (hw : WellFormed ms)
    (hf : Functional fs) (ht : Typed Any IsMap ms fs) (h1 : write "en".toList tag ms fs = some n)
    (h2 : read "en".toList ms n = some gs) (hne : fs ≠ gs) : ¬ RoundTripFull := by
  intro h
  have := h "en".toList tag ms fs n hw hf ht h1
  rw [h2] at this
  exact hne (Option.some.inj this).symm

/-- The size 0 of an empty file reads as no size. -/
theorem round_trip_refuted : ¬ RoundTripFull := by
  refine not_round_trip (tag := "File".toList) (ms := [.basic "Size".toList .long false])
    (fs := [("size".toList, .long 0)]) (gs := [("size".toList, .none)]) (n := .elem "File".toList [] []) ?_ ?_ ?_ rfl rfl ?_
  · simp [WellFormed, WellFormedM]
  · simp [Functional]
  · exact ⟨_, _, rfl, .inr rfl, rfl⟩
  · intro h; simp at h

/-- So does the number 0. -/
theorem round_trip_refuted_int : ¬ RoundTripFull := by
  refine not_round_trip (tag := "Package".toList) (ms := [.basic "Build".toList .int false])
    (fs := [("build".toList, .int 0)]) (gs := [("build".toList, .none)]) (n := .elem "Package".toList [] []) ?_ ?_ ?_ rfl rfl ?_
  · simp [WellFormed, WellFormedM]
  · simp [Functional]
  · exact ⟨_, _, rfl, .inr rfl, rfl⟩
  · intro h; simp at h

/-- White space around a text is lost. -/
theorem round_trip_refuted_space : ¬ RoundTripFull := by
  refine not_round_trip (tag := "Update".toList) (ms := [.basic "Name".toList .uni false])
    (fs := [("name".toList, .uni [' ', 'a'])]) (gs := [("name".toList, .uni ['a'])])
    (n := .elem "Update".toList [] [.elem "Name".toList [] [.text [' ', 'a']]]) ?_ ?_ ?_ rfl rfl ?_
  · simp [WellFormed, WellFormedM]
  · simp [Functional]
  · exact ⟨_, _, rfl, .inr rfl, rfl⟩
  · intro h; simp at h

/-! ## C81: what validates can be written -/

theorem encList_some {r : Bool} {f : Val → Option (List Xml)} {l : List Val} (hr : r = true → l ≠ [])
    (h : ∀ x ∈ l, ∃ cs, f x = some cs) : ∃ its, encList r f (.list l) = some its := by
  have hm : ∃ css, l.mapM f = some css := by
    clear hr
    induction l with
    | nil => exact ⟨[], rfl⟩
    | cons x l ih =>
      obtain ⟨cs, h1⟩ := h x (by simp)
      obtain ⟨css, h2⟩ := ih (fun x hx => h x (by simp [hx]))
      exact ⟨cs :: css, by rw [List.mapM_cons, h1, h2]; rfl⟩
  cases l with
  | nil =>
    cases r with
    | true => exact absurd rfl (hr rfl)
    | false => exact ⟨[], rfl⟩
  | cons x l =>
    obtain ⟨css, h⟩ := hm
    exact ⟨css.flatten, by simp only [encList, h]; rfl⟩

theorem langs_some (t : Str) (d : List (Str × Str)) (h : ∀ p ∈ d, Ascii p.1) : ∃ its, d.mapM (encLang t) = some its := by
  induction d with
  | nil => exact ⟨[], rfl⟩
  | cons p d ih =>
    obtain ⟨its, h2⟩ := ih (fun p hp => h p (by simp [hp]))
    have ha : ascii p.1 = true := (ascii_iff _).2 (h p (by simp))
    exact ⟨_ :: its, by rw [List.mapM_cons, h2]; simp only [encLang, setAttr, ha, if_true]; rfl⟩

mutual
theorem items_some {K : List (Str × Str) → Prop} (hK : ∀ d, K d → SafeText d) : ∀ (m : Member) (v : Val), TypedM Safe K m v →
    ∃ its, items m v = some its
  | .attr t b r, v, _ => ⟨[], rfl⟩
  | .str t b r, v, _ => ⟨[], rfl⟩
  | .basic t b r, v, h => by
    simp only [items]
    rcases h with ⟨rfl, rfl⟩ | h
    · exact ⟨_, rfl⟩
    · obtain ⟨s, e, _⟩ := safe_text h r
      rw [e]; exact ⟨_, rfl⟩
  | .loc t r, v, h => by
    obtain ⟨d, rfl, hk, hr⟩ := h
    simp only [items]
    cases d with
    | nil =>
      cases r with
      | true => exact absurd rfl (hr rfl)
      | false => exact ⟨[], rfl⟩
    | cons p d => exact langs_some t (p :: d) (fun q hq => ((hK _ hk).2 q hq).2.1)
  | .basics t path comp b r, v, h => by
    obtain ⟨l, rfl, hb, hr⟩ := h
    simp only [items]
    refine encList_some hr (fun x hx => ?_)
    obtain ⟨s, e, _⟩ := safe_text (hb x hx) true
    rw [e]; exact ⟨_, rfl⟩
  | .cls t ms r, v, h => by
    simp only [items]
    rcases h with ⟨rfl, rfl⟩ | ⟨fs, rfl, ht, hf⟩
    · exact ⟨[], rfl⟩
    · obtain ⟨n, hn⟩ := encode_some hK ms fs fs (.elem t [] []) (fun p hp => field_mem hf hp) ht
      simp only [hn]; exact ⟨_, rfl⟩
  | .clss t path comp ms r, v, h => by
    obtain ⟨l, rfl, hb, hr⟩ := h
    simp only [items]
    refine encList_some hr (fun x hx => ?_)
    obtain ⟨fs, rfl, ht, hf⟩ := hb x hx
    obtain ⟨n, hn⟩ := encode_some hK ms fs fs (.elem comp [] []) (fun p hp => field_mem hf hp) ht
    simp only [hn]; exact ⟨_, rfl⟩

theorem encode_some {K : List (Str × Str) → Prop} (hK : ∀ d, K d → SafeText d) : ∀ (ms : List Member) (fs gs : List (Str × Val))
    (n : Xml), (∀ p ∈ gs, field fs p.1 = p.2) → Typed Safe K ms gs → ∃ n', encode ms fs n = some n'
  | [], _, _, n, _, _ => ⟨n, by simp only [encode]⟩
  | m :: ms, fs, gs, n, hf, ht => by
    simp only [Typed] at ht
    obtain ⟨v, rest, rfl, hv, ht⟩ := ht
    have e : field fs m.name = v := hf (m.name, v) (by simp)
    obtain ⟨its, hi⟩ := items_some hK m v hv
    have hput : ∃ n1, put m (items m v) v n = some n1 := by
      rcases attr_or_str_or_tag m with ⟨t, b, r, rfl⟩ | ⟨t, b, r, rfl⟩ | ⟨q, u, hd⟩
      · rcases hv with ⟨rfl, rfl⟩ | hv
        · exact ⟨n, rfl⟩
        · obtain ⟨s, e1, _, _, _, ha⟩ := safe_text hv r
          simp only [put, e1, Option.bind_some, setAttr, ha rfl, if_true]
          cases n <;> exact ⟨_, rfl⟩
      · rcases hv with ⟨rfl, rfl⟩ | hv
        · exact ⟨n, rfl⟩
        · obtain ⟨s, e1, _⟩ := safe_text hv r
          simp only [put, e1]; exact ⟨_, rfl⟩
      · rw [put_tag hd, hi]; exact ⟨_, rfl⟩
    obtain ⟨n1, h1⟩ := hput
    obtain ⟨n2, h2⟩ := encode_some hK ms fs rest n1 (fun p hp => hf p (by simp [hp])) ht
    exact ⟨n2, by simp only [encode, e, h1]; exact h2⟩
end

theorem hasLang_iff (d : List (Str × Str)) (l : Str) : hasLang d l = true ↔ InLang d l := by
  unfold hasLang InLang
  simp only [List.any_eq_true, decide_eq_true_eq]
  constructor
  · rintro ⟨p, hp, rfl⟩; exact ⟨p.2, hp⟩
  · rintro ⟨x, hx⟩; exact ⟨_, hx, rfl⟩

theorem locValid_iff (lang : Str) (d : List (Str × Str)) : locValid lang d = true ↔ InLang d lang ∨ Common d := by
  unfold locValid Common
  rw [Bool.or_eq_true, Bool.or_eq_true, hasLang_iff, hasLang_iff, hasLang_iff, or_assoc]

theorem safe_type {a : Bool} {b : Basic} {v : Val} (h : Safe a b v) : isType b v = true ∧ v ≠ .none := by
  cases b <;> cases v <;> first | exact absurd h id | exact ⟨rfl, by simp⟩

theorem basic_valid {a r : Bool} {b : Basic} {v : Val} :
    (v = .none ∧ r = false) ∨ Safe a b v → (match v with | .none => !r | v => !v.truthy || isType b v) = true := by
  intro h
  rcases h with ⟨rfl, rfl⟩ | h
  · rfl
  · obtain ⟨h1, h2⟩ := safe_type h
    split
    · exact absurd rfl h2
    · rw [h1, Bool.or_true]

mutual
theorem validM_of {K : List (Str × Str) → Prop} {lang : Str} (hK : ∀ d, K d → InLang d lang ∨ Common d) : ∀ (m : Member) (v : Val),
    TypedM Safe K m v → validM lang m v = true
  | .attr t b r, v, h => by unfold validM; exact basic_valid h
  | .str t b r, v, h => by unfold validM; exact basic_valid h
  | .basic t b r, v, h => by unfold validM; exact basic_valid h
  | .loc t r, v, h => by
    obtain ⟨d, rfl, hk, _⟩ := h
    simp only [validM]
    exact (locValid_iff lang d).2 (hK d hk)
  | .basics t path comp b r, v, h => by
    obtain ⟨l, rfl, hb, hr⟩ := h
    simp only [validM, List.all_eq_true]
    intro x hx
    rw [(safe_type (hb x hx)).1, Bool.or_true]
  | .cls t ms r, v, h => by
    rcases h with ⟨rfl, rfl⟩ | ⟨fs, rfl, ht, hf⟩
    · simp only [validM]; rfl
    · simp only [validM]
      exact valid_of hK ms fs fs (fun p hp => field_mem hf hp) ht
  | .clss t path comp ms r, v, h => by
    obtain ⟨l, rfl, hb, hr⟩ := h
    simp only [validM, List.all_eq_true]
    intro x hx
    obtain ⟨fs, rfl, ht, hf⟩ := hb x hx
    exact valid_of hK ms fs fs (fun p hp => field_mem hf hp) ht

theorem valid_of {K : List (Str × Str) → Prop} {lang : Str} (hK : ∀ d, K d → InLang d lang ∨ Common d) : ∀ (ms : List Member)
    (fs gs : List (Str × Val)), (∀ p ∈ gs, field fs p.1 = p.2) → Typed Safe K ms gs → valid lang ms fs = true
  | [], _, _, _, _ => by simp only [valid]
  | m :: ms, fs, gs, hf, ht => by
    simp only [Typed] at ht
    obtain ⟨v, rest, rfl, hv, ht⟩ := ht
    have e : field fs m.name = v := hf (m.name, v) (by simp)
    simp only [valid, e, validM_of hK m v hv, valid_of hK ms fs rest (fun p hp => hf p (by simp [hp])) ht, Bool.and_self]
end

/-- C81, full statement: an object without errors can be written. -/
def WritableFull : Prop := ∀ (lang tag : Str) (ms : List Member) (fs : List (Str × Val)), WellFormed ms → Functional fs →
  Typed Any IsMap ms fs → valid lang ms fs = true → ∃ n, write lang tag ms fs = some n

/-- A package whose files are all empty has the installed size 0 and its metadata cannot be written. -/
theorem writable_refuted : ¬ WritableFull := by
  intro h
  obtain ⟨n, hn⟩ := h "en".toList "Package".toList [.basic "InstalledSize".toList .long true]
    [("installedSize".toList, .long 0)] (by simp [WellFormed, WellFormedM]) (by simp [Functional])
    ⟨_, _, rfl, .inr rfl, rfl⟩ rfl
  cases hn

/-- A byte string that is not ASCII, such as a file name, cannot be written. -/
theorem writable_refuted_ascii : ¬ WritableFull := by
  intro h
  obtain ⟨n, hn⟩ := h "en".toList "File".toList [.basic "Path".toList .str true]
    [("path".toList, .str [Char.ofNat 0xc3, Char.ofNat 0xa7])] (by simp [WellFormed, WellFormedM]) (by simp [Functional])
    ⟨_, _, rfl, .inr rfl, rfl⟩ rfl
  revert hn
  rw [show write "en".toList "File".toList [.basic "Path".toList .str true]
    [("path".toList, .str [Char.ofNat 0xc3, Char.ofNat 0xa7])] = none from rfl]
  intro hn; cases hn

/-- An attribute that is not ASCII cannot be written either, although tags can. -/
theorem writable_refuted_attr : ¬ WritableFull := by
  intro h
  obtain ⟨n, hn⟩ := h "en".toList "Dependency".toList [.attr "version".toList .uni true]
    [("version".toList, .uni [Char.ofNat 0xe7])] (by simp [WellFormed, WellFormedM]) (by simp [Functional])
    ⟨_, _, rfl, .inr rfl, rfl⟩ rfl
  revert hn
  rw [show write "en".toList "Dependency".toList [.attr "version".toList .uni true]
    [("version".toList, .uni [Char.ofNat 0xe7])] = none from rfl]
  intro hn; cases hn

/-- C81 for safe values: objects whose localised texts have one of the languages looked for are valid and can be written;
with C51, and read again. -/
theorem writable_partial (lang tag : Str) (ms : List Member) (fs : List (Str × Val)) (hf : Functional fs)
    (ht : Typed Safe (fun d => SafeText d ∧ (InLang d lang ∨ Common d)) ms fs) :
    valid lang ms fs = true ∧ ∃ n, write lang tag ms fs = some n := by
  have hv := valid_of (lang := lang) (fun d hd => hd.2) ms fs fs (fun p hp => field_mem hf hp) ht
  obtain ⟨n, hn⟩ := encode_some (fun d hd => hd.1) ms fs fs (.elem tag [] []) (fun p hp => field_mem hf hp) ht
  exact ⟨hv, n, by unfold write; rw [if_pos hv]; exact hn⟩

/-! ## C80: missing members -/

theorem noNodes_getAll : ∀ (p : List Str) (n : Xml), NoNodes p n → getAll n p = [] := by
  intro p
  induction p with
  | nil => intro n h; exact absurd h id
  | cons t ts ih =>
    intro n h
    rw [getAll_cons, List.flatMap_eq_nil_iff]
    intro x hx
    obtain ⟨h1, h2⟩ := List.mem_filter.1 hx
    exact ih x (h x h1 h2)

/-- C80, first half: a file without a mandatory member cannot be read. -/
theorem mandatory_missing (m : Member) (n : Xml) (hr : m.req = true) (hm : Missing m n) : decM m n = none := by
  cases m <;> simp only [Member.req] at hr <;> subst hr <;> simp only [Missing] at hm <;> simp only [decM]
  · rw [hm]; rfl
  · unfold nodeText; rw [hm]; rfl
  · rw [decTag, getNode_head, noNodes_getAll _ _ (hm _ rfl)]; rfl
  · rw [noNodes_getAll _ _ (hm _ rfl)]; rfl
  · rw [noNodes_getAll _ _ (hm _ rfl)]; rfl
  · rw [getNode_head, noNodes_getAll _ _ (hm _ rfl)]; rfl
  · rw [noNodes_getAll _ _ (hm _ rfl)]; rfl

/-- C80, full statement of the second half: a file without an optional member can be read. -/
def OptionalFull : Prop := ∀ (lang : Str) (m : Member) (n : Xml), m.req = false → Missing m n →
  ∃ v, decM m n = some v ∧ validM lang m v = true

/-- Optional localised texts are not optional. -/
theorem optional_refuted : ¬ OptionalFull := by
  intro h
  obtain ⟨v, h1, h2⟩ := h "en".toList (.loc "Summary".toList false) (.elem "Package".toList [] []) rfl (by
    intro p hp
    cases hp
    intro x hx
    cases hx)
  cases h1
  revert h2
  decide

/-- C80 for all other members. -/
theorem optional_partial (lang : Str) (m : Member) (n : Xml) (hr : m.req = false) (hm : Missing m n)
    (hl : ∀ t r, m ≠ .loc t r) : ∃ v, decM m n = some v ∧ validM lang m v = true := by
  cases m <;> simp only [Member.req] at hr <;> subst hr <;> simp only [Missing] at hm <;> simp only [decM]
  · rw [hm]; exact ⟨.none, rfl, by simp [validM]⟩
  · unfold nodeText; rw [hm]; exact ⟨.none, rfl, by simp [validM]⟩
  · rw [decTag, getNode_head, noNodes_getAll _ _ (hm _ rfl)]; exact ⟨.none, rfl, by simp [validM]⟩
  · exact absurd rfl (hl _ _)
  · rw [noNodes_getAll _ _ (hm _ rfl)]; exact ⟨.list [], rfl, by simp [validM]⟩
  · rw [getNode_head, noNodes_getAll _ _ (hm _ rfl)]; exact ⟨.none, rfl, by simp [validM]⟩
  · rw [noNodes_getAll _ _ (hm _ rfl)]; exact ⟨.list [], rfl, by simp [validM]⟩

/-! ## C82: reading does not depend on the language of the user -/

/-- C82, full statement: a file that one user can read can be read by users of other languages, with the same result. -/
def AnyLangFull : Prop := ∀ (lang lang' : Str) (ms : List Member) (n : Xml) (fs : List (Str × Val)),
  read lang ms n = some fs → read lang' ms n = some fs

/-- A package with a French summary only is unreadable unless the user's language is French. -/
theorem any_lang_refuted : ¬ AnyLangFull := by
  intro h
  have := h "fr".toList "de".toList [.loc ['S'] true] (.elem ['P'] [] [.elem ['S'] [(langAttr, "fr".toList)] [.text ['x']]])
    [(['s'], .loc [("fr".toList, ['x'])])] rfl
  revert this
  rw [show read "de".toList [.loc ['S'] true] (.elem ['P'] [] [.elem ['S'] [(langAttr, "fr".toList)] [.text ['x']]]) = none
    from rfl]
  intro h; cases h

mutual
theorem validM_lang {B : Bool → Basic → Val → Prop} (lang lang' : Str) : ∀ (m : Member) (v : Val), TypedM B Common m v →
    validM lang m v = true → validM lang' m v = true
  | .attr t b r, v, _, h => by unfold validM at h ⊢; exact h
  | .str t b r, v, _, h => by unfold validM at h ⊢; exact h
  | .basic t b r, v, _, h => by unfold validM at h ⊢; exact h
  | .loc t r, v, ht, _ => by
    obtain ⟨d, rfl, hk, _⟩ := ht
    simp only [validM]
    exact (locValid_iff lang' d).2 (.inr hk)
  | .basics t path comp b r, v, _, h => by unfold validM at h ⊢; exact h
  | .cls t ms r, v, ht, h => by
    rcases ht with ⟨rfl, rfl⟩ | ⟨fs, rfl, ht, hf⟩
    · simp only [validM]; rfl
    · simp only [validM] at h ⊢
      exact valid_lang lang lang' ms fs fs (fun p hp => field_mem hf hp) ht h
  | .clss t path comp ms r, v, ht, h => by
    obtain ⟨l, rfl, hb, hr⟩ := ht
    simp only [validM, List.all_eq_true] at h ⊢
    intro x hx
    have := h x hx
    obtain ⟨fs, rfl, ht, hf⟩ := hb x hx
    exact valid_lang lang lang' ms fs fs (fun p hp => field_mem hf hp) ht this

theorem valid_lang {B : Bool → Basic → Val → Prop} (lang lang' : Str) : ∀ (ms : List Member) (fs gs : List (Str × Val)),
    (∀ p ∈ gs, field fs p.1 = p.2) → Typed B Common ms gs → valid lang ms fs = true → valid lang' ms fs = true
  | [], _, _, _, _, _ => by simp only [valid]
  | m :: ms, fs, gs, hf, ht, h => by
    simp only [Typed] at ht
    obtain ⟨v, rest, rfl, hv, ht⟩ := ht
    have e : field fs m.name = v := hf (m.name, v) (by simp)
    simp only [valid, e, Bool.and_eq_true] at h ⊢
    exact ⟨validM_lang lang lang' m v hv h.1, valid_lang lang lang' ms fs rest (fun p hp => hf p (by simp [hp])) ht h.2⟩
end

/-- C82 for files all of whose localised texts are given in English or Turkish. -/
theorem any_lang_partial (lang lang' : Str) (ms : List Member) (n : Xml) (fs : List (Str × Val)) (hf : Functional fs)
    (ht : Typed (fun _ _ _ => True) Common ms fs) (h : read lang ms n = some fs) : read lang' ms n = some fs := by
  unfold read at h ⊢
  cases hd : decode ms n with
  | none => rw [hd] at h; cases h
  | some gs =>
    rw [hd] at h
    simp only at h ⊢
    by_cases hv : valid lang ms gs = true
    · rw [if_pos hv] at h
      cases h
      rw [if_pos (valid_lang lang lang' ms fs fs (fun p hp => field_mem hf hp) ht hv)]
    · rw [if_neg hv] at h; cases h

/-! ## C52: the text shown -/

theorem find_lang {d : List (Str × Str)} (hd : IsMap d) {l x : Str} (h : (l, x) ∈ d) :
    d.find? (fun p => p.1 = l) = some (l, x) := by
  induction d with
  | nil => cases h
  | cons p d ih =>
    have hd : p.1 ∉ d.map (·.1) ∧ IsMap d := List.nodup_cons.1 hd
    rcases List.mem_cons.1 h with rfl | h
    · rw [List.find?_cons_of_pos (by simp)]
    · have hne : p.1 ≠ l := by
        rintro rfl
        exact hd.1 (List.mem_map.2 ⟨_, h, rfl⟩)
      rw [List.find?_cons_of_neg (by simpa using hne)]
      exact ih hd.2 h

theorem find_nolang {d : List (Str × Str)} {l : Str} (h : ¬ InLang d l) : d.find? (fun p => p.1 = l) = none := by
  rw [List.find?_eq_none]
  intro p hp e
  exact h ⟨p.2, by have e : p.1 = l := by simpa using e
                   rw [← e]; exact hp⟩

/-- C52: the text in the language of the user. -/
theorem text_own (lang x : Str) (d : List (Str × Str)) (hd : IsMap d) (h : (lang, x) ∈ d) :
    locStr lang d = x ∧ locFormat lang d = some x := by
  have hh := (hasLang_iff d lang).2 ⟨x, h⟩
  simp [locStr, locFormat, find_lang hd h, hh]

/-- C52: otherwise the English one. -/
theorem text_en (lang x : Str) (d : List (Str × Str)) (hd : IsMap d) (h : ¬ InLang d lang) (he : ("en".toList, x) ∈ d) :
    locStr lang d = x ∧ locFormat lang d = some x := by
  have h1 : ¬ hasLang d lang = true := fun e => h ((hasLang_iff d lang).1 e)
  have h2 := (hasLang_iff d "en".toList).2 ⟨x, he⟩
  unfold locStr locFormat
  rw [find_nolang h, find_lang hd he, if_neg h1, if_pos h2]
  exact ⟨rfl, rfl⟩

/-- C52: otherwise the Turkish one. -/
theorem text_tr (lang x : Str) (d : List (Str × Str)) (hd : IsMap d) (h : ¬ InLang d lang) (he : ¬ InLang d "en".toList)
    (ht : ("tr".toList, x) ∈ d) : locStr lang d = x ∧ locFormat lang d = some x := by
  have h1 : ¬ hasLang d lang = true := fun e => h ((hasLang_iff d lang).1 e)
  have h2 : ¬ hasLang d "en".toList = true := fun e => he ((hasLang_iff d _).1 e)
  have h3 := (hasLang_iff d "tr".toList).2 ⟨x, ht⟩
  unfold locStr locFormat
  rw [find_nolang h, find_nolang he, find_lang hd ht, if_neg h1, if_neg h2, if_pos h3]
  exact ⟨rfl, rfl⟩

/-- C52: otherwise none. -/
theorem text_none (lang : Str) (d : List (Str × Str)) (h : ¬ InLang d lang) (he : ¬ Common d) :
    locStr lang d = [] ∧ locFormat lang d = none := by
  have he1 : ¬ InLang d "en".toList := fun e => he (.inl e)
  have he2 : ¬ InLang d "tr".toList := fun e => he (.inr e)
  have h1 : ¬ hasLang d lang = true := fun e => h ((hasLang_iff d lang).1 e)
  have h2 : ¬ hasLang d "en".toList = true := fun e => he1 ((hasLang_iff d _).1 e)
  have h3 : ¬ hasLang d "tr".toList = true := fun e => he2 ((hasLang_iff d _).1 e)
  unfold locStr locFormat
  rw [find_nolang h, find_nolang he1, find_nolang he2, if_neg h1, if_neg h2, if_neg h3]
  exact ⟨rfl, rfl⟩

/-- C52: the language is the first two letters of the locale, and English for the C locale. -/
theorem user_lang (a b : Char) (s : Str) : getLang (some (a :: b :: s)) = [a, b] ∧ getLang none = "en".toList := ⟨rfl, rfl⟩

example :
    let d : List (Str × Str) := [("fr".toList, ['f']), ("en".toList, ['e']), ("tr".toList, ['t'])]
    IsMap d ∧ locStr (getLang (some "fr_FR".toList)) d = ['f'] ∧ locStr (getLang (some "de_DE".toList)) d = ['e'] ∧
    locStr "de".toList [("tr".toList, ['t'])] = ['t'] := by
  refine ⟨?_, by decide, by decide, by decide⟩
  unfold IsMap; decide

theorem decLangs_snoc (xs : List Xml) (y : Xml) : ∀ d, decLangs (xs ++ [y]) d = (decLangs xs d).bind (decLangs [y]) := by
  induction xs with
  | nil => intro d; rfl
  | cons x xs ih =>
    intro d
    simp only [List.cons_append, decLangs]
    split
    · exact ih _
    · rfl

theorem setLang_mem {d : List (Str × Str)} (hd : IsMap d) (k c : Str) :
    IsMap (setLang d k c) ∧ ∀ l x, (l, x) ∈ setLang d k c ↔ (l = k ∧ x = c) ∨ (l ≠ k ∧ (l, x) ∈ d) := by
  have hm : ∀ (d : List (Str × Str)), (d.map (fun p => if p.1 = k then (k, c) else p)).map (·.1) = d.map (·.1) := by
    intro d
    rw [List.map_map]
    apply List.map_congr_left
    intro p _
    simp only [Function.comp]
    by_cases h : p.1 = k
    · rw [if_pos h, h]
    · rw [if_neg h]
  unfold setLang
  by_cases h : d.any (fun p => p.1 = k) = true
  · rw [if_pos h]
    refine ⟨by unfold IsMap; rw [hm]; exact hd, fun l x => ?_⟩
    rw [List.mem_map]
    constructor
    · rintro ⟨p, hp, e⟩
      by_cases hk : p.1 = k
      · rw [if_pos hk] at e; cases e; exact .inl ⟨rfl, rfl⟩
      · rw [if_neg hk] at e; subst e; exact .inr ⟨hk, hp⟩
    · rintro (⟨rfl, rfl⟩ | ⟨hne, hp⟩)
      · obtain ⟨p, hp, hk⟩ := List.any_eq_true.1 h
        exact ⟨p, hp, by rw [if_pos (by simpa using hk)]⟩
      · exact ⟨_, hp, by rw [if_neg hne]⟩
  · rw [if_neg h]
    have hno : ∀ p ∈ d, p.1 ≠ k := by
      intro p hp e
      exact h (List.any_eq_true.2 ⟨p, hp, by simpa using e⟩)
    constructor
    · unfold IsMap
      rw [List.map_append, List.nodup_append]
      refine ⟨hd, by simp, ?_⟩
      intro a ha b hb e
      obtain ⟨p, hp, rfl⟩ := List.mem_map.1 ha
      simp only [List.map_cons, List.map_nil, List.mem_singleton] at hb
      exact hno p hp (e.trans hb)
    · intro l x
      rw [List.mem_append, List.mem_singleton]
      constructor
      · rintro (hp | e)
        · exact .inr ⟨hno _ hp, hp⟩
        · cases e; exact .inl ⟨rfl, rfl⟩
      · rintro (⟨rfl, rfl⟩ | ⟨_, hp⟩)
        · exact .inr rfl
        · exact .inl hp

/-- C52: the language of a text is its attribute `xml:lang`, and English if there is none or it is empty. -/
theorem text_lang (t : Str) (as : List (Str × Str)) (ks : List Xml) :
    ((∀ v, ("xml:lang".toList, v) ∉ as) → langOf (.elem t as ks) = "en".toList) ∧
    ∀ bs cs v, as = bs ++ ("xml:lang".toList, v) :: cs → (∀ v, ("xml:lang".toList, v) ∉ bs) →
      langOf (.elem t as ks) = if v = [] then "en".toList else v := by
  have hno : ∀ bs : List (Str × Str), (∀ v, ("xml:lang".toList, v) ∉ bs) → bs.find? (fun p => p.1 = langAttr) = none := by
    intro bs h
    rw [List.find?_eq_none]
    rintro ⟨a, v⟩ hp e
    have e : a = langAttr := of_decide_eq_true e
    subst e
    exact h v hp
  constructor
  · intro h
    unfold langOf getAttr
    simp only [hno as h, Option.map_none]
  · rintro bs cs v rfl h
    unfold langOf getAttr
    simp only [List.find?_append, hno bs h, Option.none_or]
    have hyes : List.find? (fun p : Str × Str => decide (p.1 = langAttr)) (("xml:lang".toList, v) :: cs) =
        some ("xml:lang".toList, v) :=
      List.find?_cons_of_pos (p := fun p : Str × Str => decide (p.1 = langAttr))
        (decide_eq_true (rfl : "xml:lang".toList = langAttr))
    rw [hyes]
    cases v with
    | nil => rfl
    | cons c v => rfl

/-- C52: of several texts in one language the last one in the file counts; a text without language is English. -/
theorem text_read (xs : List Xml) (d : List (Str × Str)) (h : decLangs xs [] = some d) :
    IsMap d ∧ ∀ l x, (l, x) ∈ d ↔
      ∃ as n bs, xs = as ++ n :: bs ∧ langOf n = l ∧ nodeText n = some (some x) ∧ ∀ b ∈ bs, langOf b ≠ l := by
  revert d h
  refine snoc_induction (P := fun xs => ∀ d, decLangs xs [] = some d → IsMap d ∧ ∀ l x, (l, x) ∈ d ↔
      ∃ as n bs, xs = as ++ n :: bs ∧ langOf n = l ∧ nodeText n = some (some x) ∧ ∀ b ∈ bs, langOf b ≠ l) ?_ ?_ xs
  · intro d h
    cases h
    refine ⟨by unfold IsMap; simp, fun l x => ⟨fun h => (by cases h), ?_⟩⟩
    rintro ⟨as, n, bs, e, _⟩
    simp at e
  · intro xs y ih d h
    rw [decLangs_snoc] at h
    cases hx : decLangs xs [] with
    | none => rw [hx] at h; cases h
    | some d0 =>
      rw [hx] at h
      simp only [Option.bind_some, decLangs] at h
      obtain ⟨h1, h2⟩ := ih d0 hx
      split at h
      · rename_i c s hn
        cases h
        obtain ⟨h3, h4⟩ := setLang_mem h1 (langOf y) (c :: s)
        refine ⟨h3, fun l x => ?_⟩
        rw [h4]
        constructor
        · rintro (⟨rfl, rfl⟩ | ⟨hne, hp⟩)
          · exact ⟨xs, y, [], rfl, rfl, hn, by simp⟩
          · obtain ⟨as, n, bs, rfl, e1, e2, e3⟩ := (h2 l x).1 hp
            refine ⟨as, n, bs ++ [y], by simp, e1, e2, ?_⟩
            intro b hb
            rcases List.mem_append.1 hb with hb | hb
            · exact e3 b hb
            · rw [List.mem_singleton.1 hb]; exact fun e => hne e.symm
        · rintro ⟨as, n, bs, e, e1, e2, e3⟩
          rcases List.eq_nil_or_concat bs with rfl | ⟨bs', z, rfl⟩
          · obtain ⟨_, e⟩ := List.append_inj' e rfl
            cases e
            rw [hn] at e2
            left
            exact ⟨e1.symm, by cases e2; rfl⟩
          · rw [List.concat_eq_append, ← List.cons_append, ← List.append_assoc] at e
            obtain ⟨rfl, e⟩ := List.append_inj' e rfl
            obtain rfl : y = z := by simpa using e
            right
            refine ⟨fun e => e3 y (by simp) e.symm, (h2 l x).2 ⟨as, n, bs', rfl, e1, e2, fun b hb => e3 b (by simp [hb])⟩⟩
      · cases h

example :
    let en : Xml := .elem ['S'] [] [.text ['a', ' ']]
    let en2 : Xml := .elem ['S'] [(langAttr, "en".toList)] [.text ['b']]
    let tr : Xml := .elem ['S'] [(langAttr, "tr".toList)] [.text ['c']]
    decLangs [en, tr, en2] [] = some [("en".toList, ['b']), ("tr".toList, ['c'])] := by decide

/-! ## The classes of pisi/data -/

/-- `WellFormed` computed. -/
def apartB (m k : Member) : Bool :=
  (match m, k with | .basic s b _, .basic t c _ => s = t && b = c | _, _ => false) ||
  (m.name != k.name &&
    (match m, k with
      | .str _ _ _, .attr _ _ _ => true
      | .str _ _ _, .str _ _ _ => false
      | .str _ _ r, _ => r
      | .attr _ _ _, .str _ _ _ => true
      | _, .str _ _ _ => false
      | _, _ => true) &&
    (match m.tagPath, k.tagPath with
      | some p, some q => !(p.isPrefixOf q) && !(q.isPrefixOf p)
      | _, _ => true))

mutual
def wf : List Member → Bool
  | [] => true
  | m :: ms => ms.all (apartB m) && wfM m && wf ms

def wfM : Member → Bool
  | .cls _ ms _ => wf ms
  | .clss _ _ _ ms _ => wf ms
  | _ => true
end

theorem apartB_sound {m k : Member} (h : apartB m k = true) : Apart m k := by
  unfold apartB at h
  rw [Bool.or_eq_true] at h
  rcases h with h | h
  · left
    cases m <;> cases k <;> simp at h
    exact h
  · right
    rw [Bool.and_eq_true, Bool.and_eq_true] at h
    obtain ⟨⟨h1, h2⟩, h3⟩ := h
    refine ⟨by simpa using h1, ?_, ?_⟩
    · cases m <;> cases k <;> simp_all [TextFirst, Member.IsAttr]
    · intro p q hp hq
      rw [hp, hq] at h3
      simp only [Bool.and_eq_true, Bool.not_eq_true'] at h3
      constructor
      · intro h; rw [← List.isPrefixOf_iff_prefix, h3.1] at h; cases h
      · intro h; rw [← List.isPrefixOf_iff_prefix, h3.2] at h; cases h

mutual
theorem wf_sound : ∀ ms : List Member, wf ms = true → WellFormed ms
  | [], _ => by simp only [WellFormed]
  | m :: ms, h => by
    simp only [wf, Bool.and_eq_true, List.all_eq_true] at h
    simp only [WellFormed]
    exact ⟨fun k hk => apartB_sound (h.1.1 k hk), wfM_sound m h.1.2, wf_sound ms h.2⟩

theorem wfM_sound : ∀ m : Member, wfM m = true → WellFormedM m
  | .cls _ ms _, h => by simp only [wfM] at h; simp only [WellFormedM]; exact wf_sound ms h
  | .clss _ _ _ ms _, h => by simp only [wfM] at h; simp only [WellFormedM]; exact wf_sound ms h
  | .attr _ _ _, _ => by simp only [WellFormedM]
  | .str _ _ _, _ => by simp only [WellFormedM]
  | .basic _ _ _, _ => by simp only [WellFormedM]
  | .loc _ _, _ => by simp only [WellFormedM]
  | .basics _ _ _ _ _, _ => by simp only [WellFormedM]
end

/-- C51: the classes for specifications, metadata, file lists, indices, components and distributions are well formed. -/
theorem classes_well_formed : WellFormed Classes.specFile ∧ WellFormed Classes.metaData ∧ WellFormed Classes.files ∧
    WellFormed Classes.index ∧ WellFormed Classes.component ∧ WellFormed Classes.distribution := by
  refine ⟨wf_sound _ ?_, wf_sound _ ?_, wf_sound _ ?_, wf_sound _ ?_, wf_sound _ ?_, wf_sound _ ?_⟩ <;> decide +kernel

/-- A component with a localised text, a list of names and a list left out. -/
def sample : List (Str × Val) :=
  [("name".toList, .str "system.base".toList), ("localName".toList, .loc [("en".toList, "Base".toList), ("tr".toList, "Taban".toList)]),
   ("summary".toList, .loc [("en".toList, "Base".toList)]), ("description".toList, .loc [("tr".toList, "Taban sistem".toList)]),
   ("dependencies".toList, .list []), ("packages".toList, .list [.str "bash".toList, .str "glibc".toList]),
   ("sources".toList, .list [.str "gcc".toList])]

theorem sample_typed : Typed Safe (fun d => SafeText d ∧ Common d) Classes.component sample := by
  have one : ∀ p : Str × Str, p.1 ≠ [] → Ascii p.1 → Solid p.2 → (p.1 = "en".toList ∨ p.1 = "tr".toList) →
      SafeText [p] ∧ Common [p] := by
    intro p h1 h2 h3 h4
    refine ⟨⟨List.nodup_singleton _, fun q hq => ?_⟩, ?_⟩
    · rw [List.mem_singleton.1 hq]; exact ⟨h1, h2, h3⟩
    · rcases h4 with h | h
      · exact .inl ⟨p.2, by rw [← h]; simp⟩
      · exact .inr ⟨p.2, by rw [← h]; simp⟩
  have two : ∀ x y : Str, Solid x → Solid y → SafeText [("en".toList, x), ("tr".toList, y)] ∧
      Common [("en".toList, x), ("tr".toList, y)] := by
    intro x y hx hy
    refine ⟨⟨show ["en".toList, "tr".toList].Nodup by decide, fun q hq => ?_⟩, .inl ⟨x, by simp⟩⟩
    simp only [List.mem_cons, List.not_mem_nil, or_false] at hq
    rcases hq with rfl | rfl
    · exact ⟨show "en".toList ≠ [] by decide, show ∀ c ∈ "en".toList, c.toNat < 128 by decide, hx⟩
    · exact ⟨show "tr".toList ≠ [] by decide, show ∀ c ∈ "tr".toList, c.toNat < 128 by decide, hy⟩
  have str : ∀ s : Str, Ascii s → Solid s → Safe false .str (.str s) := fun s h1 h2 => ⟨h2.1, h1, fun _ => h2⟩
  refine ⟨_, _, rfl, .inr (str _ (by unfold Ascii; decide) (by unfold Solid; decide)),
    _, _, rfl, ⟨_, rfl, two _ _ (by unfold Solid; decide) (by unfold Solid; decide), by simp⟩,
    _, _, rfl, ⟨_, rfl, one _ (by decide) (by unfold Ascii; decide) (by unfold Solid; decide) (by decide), by simp⟩,
    _, _, rfl, ⟨_, rfl, one _ (by decide) (by unfold Ascii; decide) (by unfold Solid; decide) (by decide), by simp⟩,
    _, _, rfl, ⟨_, rfl, by simp, by simp⟩, _, _, rfl, ⟨_, rfl, ?_, by simp⟩, _, _, rfl, ⟨_, rfl, ?_, by simp⟩, rfl⟩
  · intro x hx
    rw [List.mem_cons, List.mem_singleton] at hx
    rcases hx with rfl | rfl
    · exact str _ (by unfold Ascii; decide) (by unfold Solid; decide)
    · exact str _ (by unfold Ascii; decide) (by unfold Solid; decide)
  · intro x hx
    rw [List.mem_singleton.1 hx]
    exact str _ (by unfold Ascii; decide) (by unfold Solid; decide)

mutual
theorem typedM_mono {B B' : Bool → Basic → Val → Prop} {K K' : List (Str × Str) → Prop} (hB : ∀ a b v, B a b v → B' a b v)
    (hK : ∀ d, K d → K' d) : ∀ (m : Member) (v : Val), TypedM B K m v → TypedM B' K' m v
  | .attr _ _ _, _, h => h.imp id (hB _ _ _)
  | .str _ _ _, _, h => h.imp id (hB _ _ _)
  | .basic _ _ _, _, h => h.imp id (hB _ _ _)
  | .loc _ _, _, ⟨d, e, k, r⟩ => ⟨d, e, hK d k, r⟩
  | .basics _ _ _ _ _, _, ⟨l, e, b, r⟩ => ⟨l, e, fun x hx => hB _ _ _ (b x hx), r⟩
  | .cls _ ms _, _, h => h.imp id (fun ⟨fs, e, t, f⟩ => ⟨fs, e, typed_mono hB hK ms fs t, f⟩)
  | .clss _ _ _ ms _, _, ⟨l, e, b, r⟩ => ⟨l, e, fun x hx =>
      let ⟨fs, e, t, f⟩ := b x hx; ⟨fs, e, typed_mono hB hK ms fs t, f⟩, r⟩

theorem typed_mono {B B' : Bool → Basic → Val → Prop} {K K' : List (Str × Str) → Prop} (hB : ∀ a b v, B a b v → B' a b v)
    (hK : ∀ d, K d → K' d) : ∀ (ms : List Member) (fs : List (Str × Val)), Typed B K ms fs → Typed B' K' ms fs
  | [], _, h => h
  | m :: ms, _, ⟨v, rest, e, h, t⟩ => ⟨v, rest, e, typedM_mono hB hK m v h, typed_mono hB hK ms rest t⟩
end

mutual
theorem laid_refl : ∀ x : Xml, Laid x x
  | .text s => by
    have := Laid.text [] s [] (by simp) (by simp)
    simpa using this
  | .elem t as ks => .elem t as ks ks (laidKids_refl ks)

theorem laidKids_refl : ∀ ks : List Xml, LaidKids ks ks
  | [] => .nil
  | .text s :: ks => .text s _ ks ks (laid_refl _) (laidKids_refl ks)
  | .elem t as cs :: ks => .elem t as cs _ ks ks (laid_refl _) (laidKids_refl ks)
end

/-- C51 and C81 together. -/
theorem write_read_partial (lang tag : Str) (ms : List Member) (fs : List (Str × Val)) (hw : WellFormed ms) (hf : Functional fs)
    (ht : Typed Safe (fun d => SafeText d ∧ (InLang d lang ∨ Common d)) ms fs) :
    ∃ n, write lang tag ms fs = some n ∧ ∀ n', Laid n n' → read lang ms n' = some fs := by
  obtain ⟨_, n, hn⟩ := writable_partial lang tag ms fs hf ht
  exact ⟨n, hn, fun n' hl => round_trip_partial lang tag ms fs n n' hw hf (typed_mono (fun _ _ _ h => h) (fun d h => h.1) ms fs ht)
    hn hl⟩

theorem functional_of_nodup {fs : List (Str × Val)} (h : (fs.map (·.1)).Nodup) : Functional fs := by
  intro p hp q hq e
  induction fs with
  | nil => cases hp
  | cons a fs ih =>
    have h := List.nodup_cons.1 h
    rcases List.mem_cons.1 hp with rfl | hp2 <;> rcases List.mem_cons.1 hq with rfl | hq2
    · rfl
    · exact absurd (List.mem_map.2 ⟨q, hq2, e.symm⟩) h.1
    · exact absurd (List.mem_map.2 ⟨p, hp2, e⟩ : q.1 ∈ fs.map (·.1)) h.1
    · exact ih h.2 hp2 hq2

/-- The component can be written, and is read by everybody from the file however that is laid out. -/
example : ∃ n, write "de".toList "PISI".toList Classes.component sample = some n ∧ ∀ lang n', Laid n n' →
    read lang Classes.component n' = some sample := by
  have hf : Functional sample := functional_of_nodup (by decide)
  obtain ⟨n, hn, hr⟩ := write_read_partial "de".toList "PISI".toList _ _ classes_well_formed.2.2.2.2.1 hf
    (typed_mono (fun _ _ _ h => h) (fun d h => ⟨h.1, .inr h.2⟩) _ _ sample_typed)
  refine ⟨n, hn, fun lang n' hl => any_lang_partial "de".toList lang _ n' _ hf ?_ (hr n' hl)⟩
  exact typed_mono (fun _ _ _ _ => trivial) (fun d h => h.2) _ _ sample_typed

/-- A list of packages in a component may be missing, the name may not. -/
example : decode Classes.component (.elem "PISI".toList [] []) = none ∧
    Missing (.basic "Name".toList .str true) (.elem "PISI".toList [] []) ∧
    Missing (.basics "Packages".toList ["Parts".toList] "Package".toList .str false)
      (.elem "PISI".toList [] [.elem "Parts".toList [] [.text ['\n']]]) := by
  refine ⟨by decide, fun p hp => ?_, fun p hp => ?_⟩
  · cases hp; intro x hx; cases hx
  · cases hp
    intro x hx _
    cases List.mem_singleton.1 hx
    intro y hy ht
    cases List.mem_singleton.1 hy
    cases ht

/-- The characters that count as blanks when a text is read, the white space of Unicode. -/
theorem uspace_iff (c : Char) : uspace c = true ↔
    c.toNat ∈ [0x9, 0xa, 0xb, 0xc, 0xd, 0x1c, 0x1d, 0x1e, 0x1f, 0x20, 0x85, 0xa0, 0x1680, 0x180e, 0x2000, 0x2001, 0x2002, 0x2003, 0x2004,
      0x2005, 0x2006, 0x2007, 0x2008, 0x2009, 0x200a, 0x2028, 0x2029, 0x202f, 0x205f, 0x3000] := by
  have hs : isSpace c = true ↔ c.toNat ∈ [0x9, 0xa, 0xb, 0xc, 0xd, 0x20] := by
    have e : ∀ d : Char, c = d ↔ c.toNat = d.toNat := fun d => ⟨fun h => by rw [h], fun h => Char.toNat_inj.1 h⟩
    simp only [isSpace, Bool.or_eq_true, decide_eq_true_eq, e, List.mem_cons, List.not_mem_nil, or_false]
    have h1 : ('\t' : Char).toNat = 9 := rfl
    have h2 : ('\n' : Char).toNat = 10 := rfl
    have h3 : ('\r' : Char).toNat = 13 := rfl
    have h4 : ('\x0b' : Char).toNat = 11 := rfl
    have h5 : ('\x0c' : Char).toNat = 12 := rfl
    have h6 : (' ' : Char).toNat = 32 := rfl
    omega
  simp only [uspace, Bool.or_eq_true, Bool.and_eq_true, decide_eq_true_eq, hs, List.mem_cons, List.not_mem_nil, or_false]
  omega

end Pisi.Xml
