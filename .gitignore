lean/.lake/
lean/lake-manifest.json
*.pyc
