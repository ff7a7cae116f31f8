import Verif.Text

/-!
The metrics endpoint: how measurements become what a Prometheus scrape is told.
`/repo/src/docket/_prometheus_exporter.py`.

Values of counters and gauges and sums of histograms are integers here (the code passes
through whatever number the SDK holds); bounds are the texts `f"{bound}"` gives.
-/
namespace Docket.Exporter

/-- The characters `_SANITIZE_NAME_RE` leaves alone, _prometheus_exporter.py:66. -/
def nameChar (c : Char) : Bool :=
  ('a' ≤ c && c ≤ 'z') || ('A' ≤ c && c ≤ 'Z') || ('0' ≤ c && c ≤ '9') || c == ':'

/-- The characters `_SANITIZE_ATTRIBUTE_KEY_RE` leaves alone, _prometheus_exporter.py:67. -/
def keyChar (c : Char) : Bool :=
  ('a' ≤ c && c ≤ 'z') || ('A' ≤ c && c ≤ 'Z') || ('0' ≤ c && c ≤ '9')

/-- `re.sub("_", …)` for a class of characters followed by `+`: every longest run of
characters that are not `ok` becomes one underscore; `inRun` tells whether the run's
underscore has been written.  _prometheus_exporter.py:66-67, 113, 127. -/
def subFrom (ok : Char → Bool) : Bool → Text → Text
  | _, [] => []
  | inRun, c :: cs =>
    if ok c then c :: subFrom ok false cs
    else if inRun then subFrom ok true cs
    else '_' :: subFrom ok true cs

/-- `_sanitize_name`, _prometheus_exporter.py:111-113. -/
def sanitizeName (name : Text) : Text := subFrom nameChar false name

/-- `str.isdigit` of the first character, for ASCII digits only: any other digit is replaced
by the expression in the next step with the same effect.  _prometheus_exporter.py:118, 125. -/
def isDigit (c : Char) : Bool := '0' ≤ c && c ≤ '9'

/-- `if name and name[0].isdigit(): name = "_" + name[1:]`,
_prometheus_exporter.py:118-119, 125-126. -/
def noDigit : Text → Text
  | [] => []
  | c :: cs => if isDigit c then '_' :: cs else c :: cs

/-- `sanitize_full_name`, _prometheus_exporter.py:116-120. -/
def sanitizeFullName (name : Text) : Text := sanitizeName (noDigit name)

/-- `sanitize_attribute`, _prometheus_exporter.py:123-127. -/
def sanitizeAttribute (key : Text) : Text := subFrom keyChar false (noDigit key)

/-- `_UNIT_MAPPINGS`, _prometheus_exporter.py:71-98. -/
def unitMappings : List (Text × Text) :=
  [(t!"d", t!"days"), (t!"h", t!"hours"), (t!"min", t!"minutes"), (t!"s", t!"seconds"),
   (t!"ms", t!"milliseconds"), (t!"us", t!"microseconds"), (t!"ns", t!"nanoseconds"),
   (t!"By", t!"bytes"), (t!"KiBy", t!"kibibytes"), (t!"MiBy", t!"mebibytes"),
   (t!"GiBy", t!"gibibytes"), (t!"TiBy", t!"tibibytes"), (t!"KBy", t!"kilobytes"),
   (t!"MBy", t!"megabytes"), (t!"GBy", t!"gigabytes"), (t!"TBy", t!"terabytes"),
   (t!"m", t!"meters"), (t!"V", t!"volts"), (t!"A", t!"amperes"), (t!"J", t!"joules"),
   (t!"W", t!"watts"), (t!"g", t!"grams"), (t!"Cel", t!"celsius"), (t!"Hz", t!"hertz"),
   (t!"1", []), (t!"%", t!"percent")]

/-- `_PER_UNIT_MAPPINGS`, _prometheus_exporter.py:100-108. -/
def perUnitMappings : List (Text × Text) :=
  [(t!"s", t!"second"), (t!"m", t!"minute"), (t!"h", t!"hour"), (t!"d", t!"day"),
   (t!"w", t!"week"), (t!"mo", t!"month"), (t!"y", t!"year")]

/-- What follows the last closing brace, if there is one. -/
def afterLast : Text → Option Text
  | [] => none
  | c :: cs =>
    match afterLast cs with
    | some r => some r
    | none => if c == '}' then some cs else none

/-- `_UNIT_ANNOTATION.sub("", unit)`: from the first opening brace to the last closing one.
Units are taken to be on one line.  _prometheus_exporter.py:68, 132. -/
def noAnnotation : Text → Text
  | [] => []
  | c :: cs =>
    if c == '{' then
      match afterLast cs with
      | some r => r
      | none => c :: cs
    else c :: noAnnotation cs

/-- `unit.split("/", maxsplit=1)`, when there is a slash.  _prometheus_exporter.py:137-138. -/
def atSlash : Text → Option (Text × Text)
  | [] => none
  | c :: cs =>
    if c == '/' then some ([], cs)
    else (atSlash cs).map fun p => (c :: p.1, p.2)

/-- `.strip("_")`, _prometheus_exporter.py:146. -/
def strip (t : Text) : Text :=
  ((t.dropWhile (· == '_')).reverse.dropWhile (· == '_')).reverse

/-- `_UNIT_MAPPINGS.get(top, top)`, `_PER_UNIT_MAPPINGS.get(bottom, bottom)`,
_prometheus_exporter.py:142-143. -/
def getOr (m : List (Text × Text)) (t : Text) : Text := (m.lookup t).getD t

/-- `map_unit`, _prometheus_exporter.py:130-146. -/
def mapUnit (unit : Text) : Text :=
  let unit := noAnnotation unit
  match unitMappings.lookup unit with
  | some u => u
  | none =>
    match atSlash unit with
    | some (top, bottom) =>
      let bottom := sanitizeName bottom
      if bottom = [] then strip (sanitizeName unit)
      else
        let top := getOr unitMappings (sanitizeName top)
        let bottom := getOr perUnitMappings bottom
        if top = [] then t!"per_" ++ bottom else top ++ t!"_per_" ++ bottom
    | none => strip (sanitizeName unit)

/-- `_convert_buckets`: the running totals, with the bounds they are for.  `total` is the
loop's `total_count`.  _prometheus_exporter.py:149-161. -/
def convertFrom (total : Nat) : List Nat → List Text → List (Text × Nat)
  | count :: counts, bound :: bounds =>
    (bound, total + count) :: convertFrom (total + count) counts bounds
  | _, _ => []

/-- `_convert_buckets`, _prometheus_exporter.py:149-161. -/
def convertBuckets (counts : List Nat) (bounds : List Text) : List (Text × Nat) :=
  convertFrom 0 counts (bounds ++ [t!"+Inf"])

/-- An attribute's value: a string, or anything else with the text `json.dumps` gives. -/
inductive Value where
  | str (t : Text)
  | other (json : Text)
deriving DecidableEq, Repr

/-- `_check_value`, _prometheus_exporter.py:366-370. -/
def checkValue : Value → Text
  | .str t => t
  | .other json => json

/-- The attributes of a data point: a dictionary's items. -/
abbrev Attrs := List (Text × Value)

/-- A number data point: its attributes and its value. -/
structure Num where
  attrs : Attrs
  value : Int
deriving DecidableEq, Repr

/-- A histogram data point. -/
structure Hist where
  attrs : Attrs
  counts : List Nat
  bounds : List Text
  sum : Int
deriving DecidableEq, Repr

/-- `metric.data`, _prometheus_exporter.py:297-364.  Other kinds of data (exponential
histograms) are only warned about by the code; docket has no instrument of that kind. -/
inductive Data where
  | sum (monotonic cumulative : Bool) (points : List Num)
  | gauge (points : List Num)
  | histogram (points : List Hist)
deriving DecidableEq, Repr

/-- A metric of the SDK. -/
structure Metric where
  name : Text
  description : Text
  unit : Text
  data : Data
deriving DecidableEq, Repr

/-- One `MetricsData`: the resources' attributes, and the metrics of all scopes of all
resources in order (the flattening of _prometheus_exporter.py:241-246). -/
structure Measurement where
  resource : Attrs
  metrics : List Metric
deriving DecidableEq, Repr

/-- The classes of families the code creates. -/
inductive Kind where
  | counter | gauge | histogram | info
deriving DecidableEq, Repr

/-- `CounterMetricFamily.__name__` and so on. -/
def Kind.cls : Kind → Text
  | .counter => t!"CounterMetricFamily"
  | .gauge => t!"GaugeMetricFamily"
  | .histogram => t!"HistogramMetricFamily"
  | .info => t!"InfoMetricFamily"

/-- What a sample says. -/
inductive Reading where
  | number (v : Int)
  | buckets (bs : List (Text × Nat)) (sum : Int)
  | info (labels : List (Text × Text))
deriving DecidableEq, Repr

/-- A metric family with the samples added to it: the label values given to `add_metric`
with the reading. -/
structure Family where
  kind : Kind
  name : Text
  doc : Text
  labels : List Text
  unit : Text
  samples : List (List Text × Reading)
deriving DecidableEq, Repr

/-- An attribute put in its place, _prometheus_exporter.py:263. -/
def insertAttr (x : Text × Value) : Attrs → Attrs
  | [] => [x]
  | y :: ys => if x.1 ≤ y.1 then x :: y :: ys else y :: insertAttr x ys

/-- `sorted(number_data_point.attributes.items())`: by key, the keys of a dictionary being
distinct.  _prometheus_exporter.py:263. -/
def sortAttrs (a : Attrs) : Attrs := a.foldr insertAttr []

/-- `"|".join` and `"%".join`. -/
def join (sep : Char) : List Text → Text
  | [] => []
  | [t] => t
  | t :: ts => t ++ sep :: join sep ts

/-- The family id: `"|".join([name, description, "%".join(label_keys), unit])` and then the
class name, _prometheus_exporter.py:267-276, 308-310, 325-327, 342-344. -/
def familyId (kind : Kind) (name doc : Text) (keys : List Text) (unit : Text) : Text :=
  join '|' [join '|' [name, doc, join '%' keys, unit], kind.cls]

/-- The dictionary of families, in the order of insertion. -/
abbrev Families := List (Text × Family)

/-- `if id not in families: families[id] = Family(…)` followed by
`families[id].add_metric(labels, …)`, _prometheus_exporter.py:312-323, 329-340, 346-362. -/
def addSample (fid : Text) (new : Family) (sample : List Text × Reading) : Families → Families
  | [] => [(fid, { new with samples := [sample] })]
  | (id, f) :: fs =>
    if id = fid then (id, { f with samples := f.samples ++ [sample] }) :: fs
    else (id, f) :: addSample fid new sample fs

/-- One data point: its labels, its family's id and the sample added,
_prometheus_exporter.py:255-276, 305-362. -/
def addPoint (kind : Kind) (m : Metric) (attrs : Attrs) (r : Reading) (fs : Families) :
    Families :=
  let name := sanitizeFullName m.name
  let unit := mapUnit m.unit
  let sorted := sortAttrs attrs
  let keys := sorted.map fun a => sanitizeAttribute a.1
  let values := sorted.map fun a => checkValue a.2
  addSample (familyId kind name m.description keys unit)
    ⟨kind, name, m.description, keys, unit, []⟩ (values, r) fs

/-- The points of one metric with their class of family and what is added,
_prometheus_exporter.py:280-364. -/
def points : Data → List (Kind × Attrs × Reading)
  | .sum monotonic cumulative ps =>
    let kind := if !monotonic && cumulative then Kind.gauge else Kind.counter
    ps.map fun p => (kind, p.attrs, .number p.value)
  | .gauge ps => ps.map fun p => (.gauge, p.attrs, .number p.value)
  | .histogram ps =>
    ps.map fun p => (.histogram, p.attrs, .buckets (convertBuckets p.counts p.bounds) p.sum)

/-- The translation of one metric, _prometheus_exporter.py:248-364. -/
def translateMetric (fs : Families) (m : Metric) : Families :=
  (points m.data).foldl (fun fs p => addPoint p.1 m p.2.1 p.2.2 fs) fs

/-- `_translate_to_prometheus`, _prometheus_exporter.py:236-364. -/
def translate (d : Measurement) (fs : Families) : Families :=
  d.metrics.foldl translateMetric fs

/-- A dictionary item set: replaced in place, or added at the end. -/
def setItem (k v : Text) : List (Text × Text) → List (Text × Text)
  | [] => [(k, v)]
  | (k', v') :: is => if k' = k then (k, v) :: is else (k', v') :: setItem k v is

/-- `_create_info_metric`, _prometheus_exporter.py:372-384: the labels are the keys, the
value is the dictionary. -/
def infoMetric (resource : Attrs) : Family :=
  let labels := resource.foldl
    (fun d a => setItem (sanitizeAttribute a.1) (checkValue a.2) d) []
  ⟨.info, t!"target", t!"Target metadata", labels.map (·.1), [],
    [(labels.map (·.1), .info labels)]⟩

/-- Where a scrape is, _prometheus_exporter.py:209-234: about to look at the target's
description, at the head of the `while`, about to `popleft`, through, or ended by the
`IndexError` of `popleft`. -/
inductive Phase where
  | info | head | pop | done | failed
deriving DecidableEq, Repr

/-- One scrape: its thread's place, its dictionary of families and what it has yielded. -/
structure Scrape where
  phase : Phase
  families : Families
  told : List Family
deriving DecidableEq, Repr

/-- The collector: the queue of measurements, the remembered description of the target, and
the scrapes by number. -/
structure State where
  queue : List Measurement
  target : Option Family
  scrapes : Nat → Option Scrape

/-- A new collector, _prometheus_exporter.py:199-203. -/
def init : State := ⟨[], none, fun _ => none⟩

/-- What happens: a scrape begins and its callback measures `d`; a scrape goes on. -/
inductive Ev where
  | start (i : Nat) (d : Measurement)
  | go (i : Nat)
deriving DecidableEq, Repr

/-- The scrape `i` becomes `c`. -/
def State.put (s : State) (i : Nat) (c : Scrape) : State :=
  { s with scrapes := fun j => if j = i then some c else s.scrapes j }

/-- A scrape goes on by one step, _prometheus_exporter.py:214-234.  A scrape of a collector
made with `disable_target_info` skips the description; docket does not ask for that. -/
def goOn (s : State) (i : Nat) (c : Scrape) : State :=
  match c.phase with
  | .info =>
    match s.queue with
    | [] => s.put i { c with phase := .head }
    | d :: _ =>
      let info := s.target.getD (infoMetric d.resource)
      { s with target := some info }.put i ⟨.head, [(t!"target", info)], c.told⟩
  | .head =>
    match s.queue with
    | [] => s.put i { c with phase := .done }
    | _ => s.put i { c with phase := .pop }
  | .pop =>
    match s.queue with
    | [] => s.put i { c with phase := .failed }
    | d :: ds =>
      let fs : Families := translate d c.families
      { s with queue := ds }.put i ⟨.head, fs, c.told ++ fs.map Prod.snd⟩
  | .done => s
  | .failed => s

/-- One event.  `start` is `self._callback()`, by which the reader measures and calls
`add_metrics_data`, _prometheus_exporter.py:182-190, 205-212. -/
def step (s : State) : Ev → State
  | .start i d =>
    match s.scrapes i with
    | some _ => s
    | none => { s with queue := s.queue ++ [d] }.put i ⟨.info, [], []⟩
  | .go i =>
    match s.scrapes i with
    | some c => goOn s i c
    | none => s

/-- All events of a history, in order. -/
def run (es : List Ev) : State := es.foldl step init

end Docket.Exporter
