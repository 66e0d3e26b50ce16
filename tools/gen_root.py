#!/usr/bin/env python3
"""Regenerate lean/Verif.lean: one import per file of lean/Verif/Props."""
import pathlib
root = pathlib.Path(__file__).resolve().parent.parent / "lean"
mods = sorted(f.stem for f in (root / "Verif/Props").glob("*.lean"))
(root / "Verif.lean").write_text("".join(f"import Verif.Props.{m}\n" for m in mods))
