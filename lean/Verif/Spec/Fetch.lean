import Verif.Diag.Fetch

/-!
# Specification: fetching a crate
-/

namespace Verif.Spec.Fetch
open Verif Verif.Index

/-- The place of a crate of crates.io in the index. -/
def indexPath : Str → Str
  | [] => []
  | [a] => "1/".toList ++ [a]
  | [a, b] => "2/".toList ++ [a, b]
  | [a, b, c] => "3/".toList ++ [a, '/', a, b, c]
  | a :: b :: c :: d :: r => [a, b, '/', c, d, '/', a, b, c, d] ++ r

/-- The URL of a crate of crates.io. -/
def indexUrl (name : Str) : Str := "https://index.crates.io/".toList ++ indexPath name

/-- What has to be the outcome for a response of the server. -/
inductive Answer (ovf : Bool) (reader : Str → Option Json) : Response → Res FetchErr Crate → Prop
  /-- The connection failed. -/
  | request : Answer ovf reader .failed (.err .request)
  /-- The crate does not exist. -/
  | notFound {body} : Answer ovf reader (.status 404 body) (.err .notFound)
  /-- Another status that is not 2xx. -/
  | status {code body} : ¬ (200 ≤ code ∧ code ≤ 299) → code ≠ 404 →
      Answer ovf reader (.status code body) (.err (.status code))
  /-- A body that is no text. -/
  | utf8 {code body} : 200 ≤ code → code ≤ 299 → (∀ text : Str, body ≠ text.utf8Encode) →
      Answer ovf reader (.status code body) (.err .utf8)
  /-- An index file that is accepted. -/
  | ok {code body} {text : Str} {c} : 200 ≤ code → code ≤ 299 → body = text.utf8Encode →
      parseCrate (fromStr ovf reader) text = .ok c → Answer ovf reader (.status code body) (.ok c)
  /-- One that is refused: a line is no version. -/
  | json {code body} {text : Str} : 200 ≤ code → code ≤ 299 → body = text.utf8Encode →
      parseCrate (fromStr ovf reader) text = .err .json → Answer ovf reader (.status code body) (.err .json)
  /-- One that is refused: there is no version. -/
  | noVersion {code body} {text : Str} : 200 ≤ code → code ≤ 299 → body = text.utf8Encode →
      parseCrate (fromStr ovf reader) text = .err .noVersion → Answer ovf reader (.status code body) (.err .noVersion)
  /-- One that is refused: the versions have different names. -/
  | mismatchedNames {code body} {text : Str} : 200 ≤ code → code ≤ 299 → body = text.utf8Encode →
      parseCrate (fromStr ovf reader) text = .err .mismatchedNames → Answer ovf reader (.status code body) (.err .mismatchedNames)
  /-- One that makes the parser of versions panic. -/
  | panic {code body} {text : Str} : 200 ≤ code → code ≤ 299 → body = text.utf8Encode →
      parseCrate (fromStr ovf reader) text = .panic → Answer ovf reader (.status code body) .panic

end Verif.Spec.Fetch
