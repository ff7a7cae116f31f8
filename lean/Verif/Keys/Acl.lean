import Verif.Keys.Glob
/-
What a docket asks of Redis, seen by Redis's access control: the keys of the limits that are kept
under a scope, the commands by kind, and the check Redis makes of each.
-/
namespace Docket.Keys

/-- `scope = self.scope or docket.name`, dependencies/_cooldown.py:51, _ratelimit.py:116,
_debounce.py:113: the plain name, never the prefix. -/
def scopeOr (name : Text) : Option Text → Text
  | none => name
  | some [] => name
  | some (c :: s) => c :: s

/-- The key of a cooldown, dependencies/_cooldown.py:51-57.  `what` is the function name, or the
argument's name and value. -/
def cooldownKey (scope what : Text) : Text := scope ++ t!":cooldown:" ++ what

/-- The key of a rate limit, dependencies/_ratelimit.py:116-122. -/
def ratelimitKey (scope what : Text) : Text := scope ++ t!":ratelimit:" ++ what

/-- A request to Redis, by what access control looks at. -/
inductive Request
  /-- a command or script that reads or writes a key -/
  | access (key : Text)
  /-- PUBLISH -/
  | publish (channel : Text)
  /-- SUBSCRIBE -/
  | subscribe (channel : Text)
  /-- PSUBSCRIBE -/
  | psubscribe (pattern : Text)
  deriving DecidableEq

/-- A Redis user's patterns: `~…` for keys and `&…` for channels. -/
structure User where
  keys : List Text
  channels : List Text

/-- `ACLSelectorCheckKey` and `ACLCheckChannelAgainstList` of Redis (acl.c): keys and channels are
matched against the patterns; a pattern subscription must be, literally, one of the channel patterns
(tests/_container.py:92 and 119 note the same).  All commands are taken to be permitted (`+@all`). -/
def permitted (u : User) : Request → Bool
  | .access k => u.keys.any (globMatch · k)
  | .publish c => u.channels.any (globMatch · c)
  | .subscribe c => u.channels.any (globMatch · c)
  | .psubscribe p => u.channels.any (· == p)

/-- The user the documentation tells one to create, docs/production.md:198-219. -/
def documentedUser (cluster : Bool) (name : Text) : User :=
  { keys := [key cluster name t!"*"], channels := [key cluster name t!"*"] }

/-- The user docket's own tests create, tests/_container.py:89-106 and 115-133, for one docket. -/
def testedUser (cluster : Bool) (name : Text) : User :=
  { keys := [key cluster name t!"*"],
    channels := [key cluster name t!"cancel:*", key cluster name t!"state:*", key cluster name t!"progress:*"] }

end Docket.Keys
