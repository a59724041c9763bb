{
 "C105": {
  "note": "responses arrive one at a time with crossfades that are over within their signals; in/out fades and superseded arrivals depend on where blocks end (C103)"
 }
}