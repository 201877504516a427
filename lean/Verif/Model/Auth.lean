/-
Names and passwords given by the user: `check_auth_info` of
`pisi/cli/command.py` and the headers of `pisi/fetcher.py`.

Strings are byte strings as in python 2, written as lists of numbers below 256.
`base64.encodestring` of the python library is modelled too: it encodes 57
bytes at a time and ends each piece with a newline.
-/
import Verif.Model.Str

namespace Pisi.Auth

/-- A byte. -/
abbrev Byte := Fin 256

/-- The digits of base 64, `table_b2a_base64` of `binascii`. -/
def alphabet : List Char :=
  ['A','B','C','D','E','F','G','H','I','J','K','L','M','N','O','P','Q','R','S','T','U','V','W',
   'X','Y','Z','a','b','c','d','e','f','g','h','i','j','k','l','m','n','o','p','q','r','s','t',
   'u','v','w','x','y','z','0','1','2','3','4','5','6','7','8','9','+','/']

/-- The digit of a number below 64. -/
def digit (n : Nat) : Char := alphabet.getD n '='

/-- `binascii.b2a_base64` without the newline at its end. -/
def b2a : List Byte → List Char
  | [] => []
  | [a] => [digit (a.val / 4), digit (a.val % 4 * 16), '=', '=']
  | [a, b] => [digit (a.val / 4), digit (a.val % 4 * 16 + b.val / 16), digit (b.val % 16 * 4), '=']
  | a :: b :: c :: l =>
    digit (a.val / 4) :: digit (a.val % 4 * 16 + b.val / 16) ::
      digit (b.val % 16 * 4 + c.val / 64) :: digit (c.val % 64) :: b2a l

/-- The loop of `base64.encodestring`; `n` bounds the number of pieces. -/
def encodeLoop : Nat → List Byte → List Char
  | 0, _ => []
  | n + 1, l =>
    if l = [] then [] else b2a (l.take 57) ++ '\n' :: encodeLoop n (l.drop 57)

/-- `base64.encodestring`. -/
def encodestring (l : List Byte) : List Char := encodeLoop l.length l

/-- The options `--username` and `--password`, empty when they are not given. -/
structure Options where
  username : List Byte
  password : List Byte

/-- `check_auth_info` (pisi/cli/command.py:117-138); `typed` is what the user
types when asked for the password. -/
def authInfo (o : Options) (typed : List Byte) : Option (List Byte × List Byte) :=
  if o.username ≠ [] ∧ o.password ≠ [] then some (o.username, o.password)
  else if o.username ≠ [] ∧ o.password = [] then some (o.username, typed)
  else none

/-- The schemes of remote files that are distinguished. -/
inductive Scheme where
  | http
  | https
  | ftp
  | other
  deriving DecidableEq

/-- `:` as a byte. -/
def colon : Byte := 58

/-- `Basic ` -/
def basic : List Char := ['B','a','s','i','c',' ']

/-- The value of the header `Authorization`, `'Basic %s' % enc`. -/
def value (a : List Byte × List Byte) : List Char :=
  basic ++ encodestring (a.1 ++ colon :: a.2)

/-- A request: over what, and the values of its headers `Authorization`. -/
structure Request where
  scheme : Scheme
  auth : List (List Char)

/-- `_get_http_headers` and `_get_ftp_headers` (pisi/fetcher.py:257-269): over
ftp `urlgrab` is given a header as well. -/
def headers (s : Scheme) (a : Option (List Byte × List Byte)) : List (List Char) :=
  match a with
  | none => []
  | some a =>
    match s with
    | .http => [value a]
    | .https => [value a]
    | .ftp => [value a]
    | .other => []

/-- The requests that `fetchRemoteFile` makes (pisi/fetcher.py:241-255), with
`_test_range_support` (296-301), which asks for the file without any header if
a part of it has been loaded before; `auth_info` is set from the options
(pisi/fetcher.py:135-136). -/
def requests (s : Scheme) (part : Bool) (a : Option (List Byte × List Byte)) : List Request :=
  (if part then [⟨s, []⟩] else []) ++ [⟨s, headers s a⟩]

end Pisi.Auth
