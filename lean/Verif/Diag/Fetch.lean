import Verif.Diag.Json

/-!
# Model of fetching a crate (crates/ide/src/index/fetch.rs:75-108)

What the server answers and whether `http_req` takes a URL are parameters.
-/

namespace Verif.Index
open Verif

/-- The outcome of `Request::send` (crates/ide/src/index/fetch.rs:92-94): an error of the connection, or a
response with a status and a body. -/
inductive Response
  | failed
  | status (code : Nat) (body : ByteArray)

/-- `ErrorKind` (crates/ide/src/index/error.rs:11-19). -/
inductive FetchErr
  | request
  | notFound
  | status (code : Nat)
  | utf8
  | json
  | noVersion
  | mismatchedNames
  deriving DecidableEq, Repr

/-- The errors of `parse_crate` as `ErrorKind` (crates/ide/src/index/error.rs:11-25). -/
def FetchErr.ofParse : ParseErr → FetchErr
  | .json => .json
  | .noVersion => .noVersion
  | .mismatchedNames => .mismatchedNames

/-- `StatusCode::is_success` of `http_req`. -/
def isSuccess (code : Nat) : Bool := 200 ≤ code && code < 300

/-- `fetch_crate_from_url` (crates/ide/src/index/fetch.rs:85-108).  `uriOk`: whether `Uri::try_from`
succeeds; `send`: the answer for a URL. -/
def fetchFromUrl (ovf : Bool) (reader : Str → Option Json) (uriOk : Str → Bool) (send : Str → Response)
    (url : Str) : Res FetchErr Crate :=
  if uriOk url then
    match send url with
    | .failed => .err .request
    | .status code body =>
      if !isSuccess code then
        if code = 404 then .err .notFound else .err (.status code)
      else
        match body.utf8Decode? with
        | none => .err .utf8
        | some text =>
          match parseCrate (fromStr ovf reader) text.toList with
          | .ok c => .ok c
          | .err e => .err (.ofParse e)
          | .panic => .panic
  else .panic

/-- `Error` (crates/ide/src/index/error.rs:4-9). -/
structure FetchError where
  name : Str
  url : Str
  kind : FetchErr
  deriving DecidableEq, Repr

/-- `fetch_crate` (crates/ide/src/index/fetch.rs:75-83). -/
def fetchCrate (ovf : Bool) (reader : Str → Option Json) (uriOk : Str → Bool) (send : Str → Response)
    (r : Registry) (name : Str) : Res FetchError Crate :=
  match sparseIndexUrl r name with
  | none => .panic
  | some (_, url) =>
    match fetchFromUrl ovf reader uriOk send url with
    | .ok c => .ok c
    | .err kind => .err ⟨name, url, kind⟩
    | .panic => .panic

end Verif.Index
