/-
The name and password of the user reach the server (C147).
-/
import Verif.Spec.Auth

namespace Pisi.Auth
open Pisi.AuthSpec

theorem val_digit : ∀ n : Fin 64, val (digit n.val) = some n.val := by decide

theorem val_digit' {n : Nat} (h : n < 64) : val (digit n) = some n := val_digit ⟨n, h⟩

theorem digit_ne_pad : ∀ n : Fin 64, digit n.val ≠ '=' ∧ digit n.val ≠ '\n' := by decide

theorem digit_ne {n : Nat} (h : n < 64) : digit n ≠ '=' ∧ digit n ≠ '\n' := digit_ne_pad ⟨n, h⟩

theorem byte_eq {n : Nat} {b : Byte} (h : n % 256 = b.val) : byte n = b := Fin.ext h

/-- Decoding what was encoded gives the bytes again, for every sequence of
bytes. -/
theorem decode_b2a : ∀ l : List Byte, decode (b2a l) = some l
  | [] => rfl
  | [a] => by
    have ha := a.isLt
    simp only [b2a, decode, val_digit' (show a.val / 4 < 64 by omega),
      val_digit' (show a.val % 4 * 16 < 64 by omega)]
    simp only [and_self, if_true]
    exact congrArg some (congrArg (· :: []) (byte_eq (by omega)))
  | [a, b] => by
    have ha := a.isLt
    have hb := b.isLt
    have h3 := digit_ne (show b.val % 16 * 4 < 64 by omega)
    simp only [b2a, decode, val_digit' (show a.val / 4 < 64 by omega),
      val_digit' (show a.val % 4 * 16 + b.val / 16 < 64 by omega),
      val_digit' (show b.val % 16 * 4 < 64 by omega), h3.1, false_and, if_false, and_self, if_true]
    rw [byte_eq (b := a) (by omega), byte_eq (b := b) (by omega)]
  | a :: b :: c :: l => by
    have ha := a.isLt
    have hb := b.isLt
    have hc := c.isLt
    have h3 := digit_ne (show b.val % 16 * 4 + c.val / 64 < 64 by omega)
    have h4 := digit_ne (show c.val % 64 < 64 by omega)
    simp only [b2a, decode, val_digit' (show a.val / 4 < 64 by omega),
      val_digit' (show a.val % 4 * 16 + b.val / 16 < 64 by omega),
      val_digit' (show b.val % 16 * 4 + c.val / 64 < 64 by omega),
      val_digit' (show c.val % 64 < 64 by omega), h3.1, h4.1, false_and, if_false, decode_b2a l]
    rw [byte_eq (b := a) (by omega), byte_eq (b := b) (by omega), byte_eq (b := c) (by omega)]

theorem b2a_no_newline : ∀ l : List Byte, ∀ c ∈ b2a l, c ≠ '\n'
  | [] => by simp [b2a]
  | [a] => by
    have ha := a.isLt
    have h1 := digit_ne (show a.val / 4 < 64 by omega)
    have h2 := digit_ne (show a.val % 4 * 16 < 64 by omega)
    simp [b2a, h1.2, h2.2]
  | [a, b] => by
    have ha := a.isLt
    have hb := b.isLt
    have h1 := digit_ne (show a.val / 4 < 64 by omega)
    have h2 := digit_ne (show a.val % 4 * 16 + b.val / 16 < 64 by omega)
    have h3 := digit_ne (show b.val % 16 * 4 < 64 by omega)
    simp [b2a, h1.2, h2.2, h3.2]
  | a :: b :: c :: l => by
    have ha := a.isLt
    have hb := b.isLt
    have hc := c.isLt
    have h1 := digit_ne (show a.val / 4 < 64 by omega)
    have h2 := digit_ne (show a.val % 4 * 16 + b.val / 16 < 64 by omega)
    have h3 := digit_ne (show b.val % 16 * 4 + c.val / 64 < 64 by omega)
    have h4 := digit_ne (show c.val % 64 < 64 by omega)
    intro x hx
    simp only [b2a, List.mem_cons] at hx
    rcases hx with hx | hx | hx | hx | hx
    · rw [hx]; exact h1.2
    · rw [hx]; exact h2.2
    · rw [hx]; exact h3.2
    · rw [hx]; exact h4.2
    · exact b2a_no_newline l x hx

/-- Encoding goes three bytes at a time. -/
theorem b2a_append : ∀ (l m : List Byte), 3 ∣ l.length → b2a (l ++ m) = b2a l ++ b2a m
  | [], _, _ => rfl
  | [_], _, h => by simp at h
  | [_, _], _, h => by simp at h
  | a :: b :: c :: l, m, h => by
    have h' : 3 ∣ l.length := by simp only [List.length_cons] at h; omega
    simp only [List.cons_append, b2a, b2a_append l m h']

theorem filter_b2a (l : List Byte) :
    (b2a l).filter (fun c => decide (c ≠ '\n')) = b2a l :=
  List.filter_eq_self.2 (fun c hc => by simpa using b2a_no_newline l c hc)

/-- Without its newlines the text is that of encoding all at once. -/
theorem filter_loop : ∀ (n : Nat) (l : List Byte), l.length ≤ n →
    (encodeLoop n l).filter (fun c => decide (c ≠ '\n')) = b2a l
  | 0, l, h => by
    have : l = [] := List.length_eq_zero_iff.1 (by omega)
    subst this; rfl
  | n + 1, l, h => by
    by_cases hl : l = []
    · subst hl; simp [encodeLoop, b2a]
    · have hlen : 0 < l.length := List.length_pos_iff.2 hl
      simp only [encodeLoop, if_neg hl, List.filter_append, filter_b2a]
      rw [List.filter_cons_of_neg (by simp), filter_loop n (l.drop 57) (by rw [List.length_drop]; omega)]
      by_cases h57 : l.length ≤ 57
      · rw [List.take_of_length_le h57, List.drop_of_length_le h57]
        simp [b2a]
      · rw [← b2a_append _ _ (by rw [List.length_take]; omega), List.take_append_drop]

theorem credentials_cons (b : Byte) (l : List Byte) : credentials (b :: l) =
    if b = colon then some ([], l) else (credentials l).map (fun r => (b :: r.1, r.2)) := rfl

theorem credentials_colon (u p : List Byte) (h : colon ∉ u) :
    credentials (u ++ colon :: p) = some (u, p) := by
  induction u with
  | nil => simp [credentials_cons]
  | cons b u ih =>
    have hb : b ≠ colon := fun e => h (e ▸ List.mem_cons_self ..)
    simp only [List.cons_append, credentials_cons, if_neg hb,
      ih (fun hm => h (List.mem_cons_of_mem _ hm)), Option.map_some]

theorem credentials_first (u p : List Byte) (h : colon ∈ u) :
    credentials (u ++ colon :: p) ≠ some (u, p) := by
  induction u with
  | nil => cases h
  | cons b u ih =>
    by_cases hb : b = colon
    · simp [credentials_cons, hb]
    · have hm : colon ∈ u := by
        rcases List.mem_cons.1 h with e | e
        · exact absurd e.symm hb
        · exact e
      have := ih hm
      simp only [List.cons_append, credentials_cons, if_neg hb]
      intro e
      rcases hc : credentials (u ++ colon :: p) with _ | ⟨x, y⟩
      · rw [hc] at e; cases e
      · rw [hc] at e this
        simp only [Option.map_some, Option.some.injEq, Prod.mk.injEq, List.cons.injEq, true_and] at e
        exact this (by rw [e.1, e.2])

/-- A server that leaves out the ends of lines reads the bytes that were
encoded. -/
theorem lax_value (u p : List Byte) : readsLax (value (u, p)) = credentials (u ++ colon :: p) := by
  have hf : (value (u, p)).filter (fun c => decide (c ≠ '\n'))
      = basic ++ b2a (u ++ colon :: p) := by
    rw [value, List.filter_append]
    show _ ++ (encodeLoop _ _).filter _ = _
    rw [filter_loop _ _ (Nat.le_refl _)]
    rfl
  rw [readsLax, hf, reads, if_pos (by simp [basic])]
  show (decode (b2a (u ++ colon :: p))).bind credentials = _
  rw [decode_b2a]
  rfl

/-- It knows the user if and only if there is no colon in the name. -/
theorem lax_knows (u p : List Byte) : readsLax (value (u, p)) = some (u, p) ↔ colon ∉ u := by
  rw [lax_value]
  constructor
  · intro h hc
    exact credentials_first u p hc h
  · exact credentials_colon u p

theorem decode_newline : ∀ (n : Nat) (l : List Char), l.length ≤ n → '\n' ∈ l → decode l = none := by
  intro n
  induction n with
  | zero =>
    intro l h hm
    have : l = [] := List.length_eq_zero_iff.1 (by omega)
    subst this; cases hm
  | succ n ih =>
    intro l h hm
    have hv : val '\n' = none := by decide
    match l, h, hm with
    | [], _, hm => cases hm
    | [_], _, _ => rfl
    | [_, _], _, _ => rfl
    | [_, _, _], _, _ => rfl
    | a :: b :: c :: d :: l, h, hm =>
      simp only [List.length_cons] at h
      simp only [decode]
      by_cases ha : a = '\n'
      · subst ha; simp [hv]
      by_cases hb : b = '\n'
      · subst hb
        rcases val a with _ | x <;> simp [hv]
      rcases val a with _ | x
      · rfl
      rcases val b with _ | y
      · rfl
      simp only
      have hm' : '\n' = c ∨ '\n' = d ∨ '\n' ∈ l := by
        rcases List.mem_cons.1 hm with e | hm
        · exact absurd e.symm ha
        rcases List.mem_cons.1 hm with e | hm
        · exact absurd e.symm hb
        rcases List.mem_cons.1 hm with e | hm
        · exact Or.inl e
        rcases List.mem_cons.1 hm with e | hm
        · exact Or.inr (Or.inl e)
        · exact Or.inr (Or.inr hm)
      have hne : ('\n' : Char) ≠ '=' := by decide
      rw [if_neg (by
        rintro ⟨rfl, rfl, rfl⟩
        rcases hm' with e | e | e
        · exact hne e
        · exact hne e
        · cases e)]
      by_cases hc : c = '\n'
      · subst hc; simp [hv]
      rcases val c with _ | z
      · rfl
      simp only
      rw [if_neg (by
        rintro ⟨rfl, rfl⟩
        rcases hm' with e | e | e
        · exact hc e.symm
        · exact hne e
        · cases e)]
      by_cases hd : d = '\n'
      · subst hd; simp [hv]
      have hl : '\n' ∈ l := by
        rcases hm' with e | e | e
        · exact absurd e.symm hc
        · exact absurd e.symm hd
        · exact e
      rw [ih l (by omega) hl]
      rcases val d with _ | w <;> rfl

theorem newline_mem (l : List Byte) (h : l ≠ []) : '\n' ∈ encodestring l := by
  cases l with
  | nil => exact absurd rfl h
  | cons b l =>
    simp only [encodestring, List.length_cons, encodeLoop, if_neg (List.cons_ne_nil b l)]
    exact List.mem_append_right _ (List.mem_cons_self ..)

/-- A server that reads the value of the header as it was sent never knows the
user. -/
theorem strict_never (a : List Byte × List Byte) : reads (value a) = none := by
  have hd : decode (encodestring (a.1 ++ colon :: a.2)) = none :=
    decode_newline _ _ (Nat.le_refl _) (newline_mem _ (by simp))
  rw [reads, if_pos (by simp [value, basic])]
  show (decode ((basic ++ encodestring (a.1 ++ colon :: a.2)).drop 6)).bind credentials = none
  rw [show (basic ++ encodestring (a.1 ++ colon :: a.2)).drop 6
    = encodestring (a.1 ++ colon :: a.2) from rfl, hd]
  rfl

/-- The value of the header has one line end for every 57 bytes begun; so with
a name and password of 57 bytes or more the header is broken in two. -/
theorem line_ends (n : Nat) (l : List Byte) (h : l.length ≤ n) :
    (encodeLoop n l).count '\n' = (l.length + 56) / 57 := by
  induction n generalizing l with
  | zero =>
    have : l = [] := List.length_eq_zero_iff.1 (by omega)
    subst this; rfl
  | succ n ih =>
    by_cases hl : l = []
    · subst hl; simp [encodeLoop]
    · have hlen : 0 < l.length := List.length_pos_iff.2 hl
      have h0 : (b2a (l.take 57)).count '\n' = 0 :=
        List.count_eq_zero.2 (fun hm => b2a_no_newline _ _ hm rfl)
      simp only [encodeLoop, if_neg hl, List.count_append, h0, List.count_cons_self]
      rw [ih _ (by rw [List.length_drop]; omega), List.length_drop]
      omega

/-- `check_auth_info` gives the name with the password given or typed, and
nothing without a name. -/
theorem authInfo_name (o : Options) (typed : List Byte) :
    authInfo o typed = if o.username = [] then none
      else some (o.username, if o.password = [] then typed else o.password) := by
  by_cases hu : o.username = [] <;> by_cases hp : o.password = [] <;> simp [authInfo, hu, hp]

/-- Partial (C147): a server that leaves out the ends of lines knows the user
in the request for the file, over http, https and ftp, for every name without a
colon and every password.  Missing: servers that keep to the standard (`strict_never`), names
with a colon (`lax_knows`), and the request by which it is found out whether
loading can be continued (`probe_unknown`). -/
theorem auth_partial (o : Options) (typed : List Byte) (hu : o.username ≠ [])
    (hc : colon ∉ o.username) (s : Scheme) (hs : s ≠ .other) (part : Bool) :
    ∃ r, (requests s part (authInfo o typed)).getLast? = some r ∧
      KnownLax r o.username (if o.password = [] then typed else o.password) := by
  refine ⟨⟨s, headers s (authInfo o typed)⟩, by simp [requests], ?_⟩
  rw [authInfo_name, if_neg hu]
  have hh : headers s (some (o.username, if o.password = [] then typed else o.password))
      = [value (o.username, if o.password = [] then typed else o.password)] := by
    cases s with
    | other => exact absurd rfl hs
    | _ => rfl
  simp only [KnownLax, hh, List.map_cons, List.map_nil, (lax_knows _ _).2 hc]

/-- If a part of the file has been loaded before, the first request has no
name at all. -/
theorem probe_unknown (s : Scheme) (a : Option (List Byte × List Byte)) (u p : List Byte) :
    ∃ r, (requests s true a).head? = some r ∧ ¬ Known r u p ∧ ¬ KnownLax r u p :=
  ⟨⟨s, []⟩, rfl, by simp [Known], by simp [KnownLax]⟩

/-- Without a name nothing is sent, even if a password is given. -/
theorem nothing_sent (o : Options) (typed : List Byte) (h : o.username = []) (s : Scheme)
    (part : Bool) : ∀ r ∈ requests s part (authInfo o typed), r.auth = [] := by
  rw [authInfo_name, if_pos h]
  intro r hr
  rcases part with _ | _ <;> simp [requests, headers] at hr <;> simp [hr]

/-- Nothing is sent over schemes other than http, https and ftp. -/
theorem nothing_other (a : Option (List Byte × List Byte)) (part : Bool) :
    ∀ r ∈ requests .other part a, r.auth = [] := by
  intro r hr
  rcases a with _ | a <;> rcases part with _ | _ <;> simp [requests, headers] at hr <;> simp [hr]

/-- The full statement does not hold: already for `a` with the password `b`. -/
theorem auth_refuted : ¬ AuthFull := by
  intro h
  have := h ⟨[97], [98]⟩ [] (by simp) .http (Or.inl rfl) false
    ⟨.http, headers .http (authInfo ⟨[97], [98]⟩ [])⟩ (by simp [requests])
  simp only [Known] at this
  rw [show headers .http (authInfo ⟨[97], [98]⟩ []) = [value ([97], [98])] from rfl] at this
  simp [strict_never] at this

/-- `user` with the password `pass`. -/
example : value ([117, 115, 101, 114], [112, 97, 115, 115]) =
    ['B','a','s','i','c',' ','d','X','N','l','c','j','p','w','Y','X','N','z','\n'] := by decide

example : readsLax (value ([117, 115, 101, 114], [112, 97, 115, 115]))
    = some ([117, 115, 101, 114], [112, 97, 115, 115]) := by decide

/-- A name with a colon is read as another name. -/
example : readsLax (value ([117, 58, 114], [112])) = some ([117], [114, 58, 112]) := by decide

/-- A password of 60 bytes makes a second line. -/
example : (value ([117], List.replicate 60 112)).count '\n' = 2 := by decide +kernel

end Pisi.Auth
