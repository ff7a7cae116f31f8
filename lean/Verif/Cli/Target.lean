import Verif.Cli.Sentinel

/-!
# Which docket a command of the command line opens

Models the `--docket` and `--url` options of all commands (cli/__init__.py), `validate_url`
(cli/_support.py:140-153) and the choice of the backend in `RedisConnection`
(_redis.py:639-683), with the parts of `urllib.parse.urlsplit` and of click's handling of
options they use.  Not modelled: what the commands do with the docket.
-/

namespace Docket.Target
open Decimal Sentinel

/-- The commands that open a docket, cli/__init__.py:59-945. -/
inductive Command
  | worker
  | strike
  | clear
  | restore
  | trace
  | fail
  | sleep
  | snapshot
  | watch
  | workersLs
  | workersForTask
  deriving DecidableEq, Repr

/-- The two options as written on the command line, if they were. -/
structure Given where
  docket : Option Text
  url : Option Text

/-- The environment variables. -/
abbrev Environ := Text → Option Text

/-- click: the option, else the environment variable unless it is empty, else the default. -/
def resolve (given : Option Text) (env : Option Text) (default_ : Text) : Text :=
  match given with
  | some v => v
  | none =>
    match env with
    | some v => if v = [] then default_ else v
    | none => default_

/-- `envvar=` of the `--docket` option: cli/__init__.py:75-82 for the worker, 653-661 for watch
and likewise in the others. -/
def docketVar (_ : Command) : Text := t!"DOCKET_NAME"

/-- `envvar=` of the `--url` option: cli/__init__.py:83-89 for the worker, 262-270 for strike and
likewise in the others, but 640-648 for watch. -/
def urlVar : Command → Text
  | .watch => t!"DOCKET_REDIS_URL"
  | _ => t!"DOCKET_URL"

/-- Whether the `--url` option has `callback=validate_url`: all but cli/__init__.py:83-89 and
640-648. -/
def validated : Command → Bool
  | .worker => false
  | .watch => false
  | _ => true

/-- `validate_url`, cli/_support.py:140-153; `none` is the `BadParameter`. -/
def validateUrl (url : Text) : Option Text :=
  if t!"memory://".isPrefixOf url then none else some url

/-- The docket that a command opens, as the name and the URL given to `Docket(...)`,
cli/__init__.py:206-211, 284-288, 310-315, 375-378, 419-424, 460-465, 501-506, 549-554, 661-664,
902-904 and 939-941 with worker.py:424-428; `none` if the command refuses its URL. -/
def opened (c : Command) (env : Environ) (g : Given) : Option (Text × Text) :=
  let name := resolve g.docket (env (docketVar c)) t!"docket"
  let url := resolve g.url (env (urlVar c)) t!"redis://localhost:6379/0"
  if validated c then (validateUrl url).map (fun u => (name, u)) else some (name, url)

/-- urllib's `_WHATWG_C0_CONTROL_OR_SPACE`. -/
def isStripped (c : Char) : Bool := c.toNat ≤ 32

/-- urllib's `scheme_chars`. -/
def isSchemeChar (c : Char) : Bool := c.isAlphanum || c = '+' || c = '-' || c = '.'

/-- `urlsplit(url).scheme`: the text before the first colon, in lower case, if it starts with a
letter and has only the characters of schemes. -/
def urlScheme (url : Text) : Text :=
  let u := (url.dropWhile isStripped).filter (fun c => !isRemoved c)
  let s := u.takeWhile (fun c => c ≠ ':')
  match s with
  | [] => []
  | c :: _ =>
    if u.contains ':' && c.isAlpha && s.all isSchemeChar then s.map Char.toLower else []

/-- `RedisConnection.is_memory`, _redis.py:652-654 and 722-725: the docket lives in the memory of
the process that opened it.  The scheme of a Sentinel URL is one of the two Sentinel schemes. -/
def inMemory (url : Text) : Bool := !isSentinelUrl url && urlScheme url = t!"memory"

end Docket.Target
