#!/usr/bin/env python3
"""Regenerate lean/Verif.lean and MANIFEST.json.

The theorems of property Cnn are the ones named `Cnn_...` in lean/Verif/Props; status and notes come from
tools/status.json.
"""
import json
import pathlib
import re

root = pathlib.Path(__file__).resolve().parent.parent
lean = root / "lean"
mods = sorted(
    ".".join(p.relative_to(lean).with_suffix("").parts)
    for p in (lean / "Verif").rglob("*.lean")
)
(lean / "Verif.lean").write_text("".join(f"import {m}\n" for m in mods))

thms = {}
for p in sorted((lean / "Verif" / "Props").rglob("*.lean")):
    text = p.read_text()
    spaces = []
    for m in re.finditer(r"^(?:(namespace|section|end)(?: (\S+))?|(?:noncomputable section)|theorem (\S+))$|^theorem (\S+)", text, re.M):
        kind, name, thm = m.group(1), m.group(2), m.group(3) or m.group(4)
        if kind == "end":
            spaces.pop()
        elif thm is None:
            spaces.append(name if kind == "namespace" else None)
        else:
            pre = ".".join(n for n in spaces if n)
            full = thm[len("_root_."):] if thm.startswith("_root_.") else f"{pre}.{thm}" if pre else thm
            c = re.fullmatch(r"(?:.*\.)?(C\d\d+)_\w+'*", full)
            if c:
                thms.setdefault(c.group(1), []).append(full)

status = json.loads((root / "tools" / "status.json").read_text())
ids = [json.loads(l)["id"] for l in (root / "properties.jsonl").read_text().splitlines() if l.strip()]
claims = []
for i in ids:
    if i not in status:
        continue
    st, note = status[i]
    claims.append({"property": i, "status": st, "theorems": thms.get(i, []), "note": note})
    assert thms.get(i) or st == "not_applicable", i
missing = [i for i in thms if i not in status]
(root / "MANIFEST.json").write_text(
    '{"claims": [\n' + ",\n".join(json.dumps(c, ensure_ascii=False) for c in claims) + "\n]}\n"
)
print("claims", len(claims), "without status:", missing, "no claim yet:", [i for i in ids if i not in status])
